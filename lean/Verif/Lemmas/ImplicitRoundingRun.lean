import Verif.Lemmas.ImplicitRounding

/-!
# The whole run of implicit Euler in binary64
-/

set_option exponentiation.threshold 3000

namespace Verif
open Spec

namespace Fdm

/-- The equations of implicit Euler for the Black-Scholes equation. -/
def ImplicitRows (σ r c h k : ℝ) (J : ℕ) (old new : ℕ → ℝ) : Prop :=
  ∀ j, 1 ≤ j → j + 1 < J → loI σ r c h k j * new (j - 1) - dgI σ r h k j * new j + upI σ r c h k j * new (j + 1) = -(h * h * old j)

/-- The scheme for the Black-Scholes equation as a linear system. -/
theorem implicitRows_of_scheme {q : Problem} {σ r c h k t : ℝ} (hq : BlackScholesCoefficients q σ r c) (hh : h ≠ 0) (hk : k ≠ 0) {J : ℕ} {old new : ℕ → ℝ}
    (hs : BackwardEuler q J h k t old new) : ImplicitRows σ r c h k J old new := by
  intro j h1 h2
  have e := hs j h1 h2
  rw [div_eq_iff hk, central, hq.D, hq.C, hq.R, hq.f] at e
  have e' : new j - old j = (1 / 2 * σ ^ 2 * (j : ℝ) ^ 2 * (new (j + 1) - 2 * new j + new (j - 1)) + (r - c) * j * (new (j + 1) - new (j - 1)) / 2 - r * new j) * k := by
    rw [e]
    field_simp
    ring
  unfold loI upI dgI
  linear_combination (-(h * h)) * e'

/-- The levels are bounded by the data. -/
theorem implicit_bounded {σ r c h k M : ℝ} {J n : ℕ} (hJ : 0 < J) (hh : 0 < h) (hk : 0 ≤ k) (hr : 0 ≤ r) (hb : |r - c| ≤ σ ^ 2)
    {U : ℕ → ℕ → ℝ} (h0 : ∀ j < J, |U 0 j| ≤ M) (hU : ∀ i < n, ImplicitRows σ r c h k J (U i) (U (i + 1)))
    (hl : ∀ i < n, |U (i + 1) 0| ≤ M) (hR : ∀ i < n, |U (i + 1) (J - 1)| ≤ M) : ∀ i ≤ n, ∀ j < J, |U i j| ≤ M := by
  intro i
  induction i with
  | zero => exact fun _ => h0
  | succ i ih =>
    intro hi
    refine maximum_principle (H := h * h) (lo := loI σ r c h k) (up := upI σ r c h k) (dg := dgI σ r h k) hJ (by positivity) (fun j a _ => (coefficients_sign hk hr hb a).1) (fun j a _ => (coefficients_sign hk hr hb a).2.1)
      (fun j a _ => (coefficients_sign hk hr hb a).2.2) (fun j a b => ?_) (hl i hi) (hR i hi)
    rw [hU i hi j a b, abs_neg, abs_mul, abs_of_nonneg (mul_self_nonneg h)]
    exact mul_le_mul_of_nonneg_left (ih (by omega) j (by omega)) (mul_self_nonneg h)

section
variable {o : OptObj (Dbl .binary64)} {m : Market (Dbl .binary64)} {d : StockData (Dbl .binary64)} {σ r c h k P V : ℝ} {J : ℕ}
  (hd : BlackScholes.stock o m = .ok d) (hσ' : d.sigma = .num σ) (hr' : m.r = .num r) (hc' : d.coupon.getD (lit 0) = .num c)
  (hk : 0 ≤ k) (hr : 0 ≤ r) (hb : |r - c| ≤ σ ^ 2) (hP : k * (σ ^ 2 * (J : ℝ) ^ 2 + r) ≤ P) (hP2 : P ≤ 2 ^ 16)
  (hσ : |σ| ≤ 2 ^ 10) (hr2 : r ≤ 2 ^ 10) (hk2 : k ≤ 2 ^ 10) (hh : 2 ^ (-30 : ℤ) ≤ h) (hh2 : J * h ≤ 2 ^ 20) (hJ4 : 4 ≤ J) (hJ2 : J ≤ 2 ^ 20)

include hd hσ' hr' hc' hk hr hb hP hP2 hσ hr2 hk2 hh hh2 hJ4 hJ2 in
/-- One step of the run. -/
theorem implicitStep_double {s : Fdm (Dbl .binary64)} (hs : DoubleGrid J h k s) {v u u' : ℕ → ℝ} {E l R : ℝ} (ho : s.oldPrices = vec J fun j => .num (v j))
    (hV : 2 ^ (-20 : ℤ) ≤ V) (hV2 : V ≤ 2 ^ 40) (hv : ∀ i < J, |v i| ≤ V) (huv : ∀ i < J, |v i - u i| ≤ E) (hu : ImplicitRows σ r c h k J u u')
    (hl : (BlackScholes.pde o m).boundaryLeft (s.tPrev + s.dt) (lit ((0 : ℕ) : ℚ) * s.dx) = .ok (.num l)) (hlV : |l| ≤ V) (hle : |l - u' 0| ≤ E)
    (hR : (BlackScholes.pde o m).boundaryRight (s.tPrev + s.dt) (lit ((J - 1 : ℕ) : ℚ) * s.dx) = .ok (.num R)) (hRV : |R| ≤ V) (hRe : |R - u' (J - 1)| ≤ E) :
    ∃ (s' : Fdm (Dbl .binary64)) (v' : ℕ → ℝ), step (.implicit thomas) (BlackScholes.pde o m) s = (.ok (), s') ∧ DoubleGrid J h k s' ∧ s'.dt = s.dt ∧ s'.dx = s.dx ∧
      s'.tPrev = s.tPrev + s.dt ∧ s'.solved = s.solved ∧ s'.oldPrices = vec J (fun j => .num (v' j)) ∧ s'.newPrices = vec J (fun j => .num (v' j)) ∧
      ∀ j < J, |v' j - u' j| ≤ E + (1 + P) * V / 2 ^ 41 := by
  obtain rfl := hs.size
  have hh0 : 0 < h := lt_of_lt_of_le (by positivity) hh
  have two := hs.two
  have hJ1 : (1 : ℝ) ≤ s.J := by exact_mod_cast (by omega : 1 ≤ s.J)
  have h1 : h ≤ 2 ^ 20 := (le_mul_of_one_le_left hh0.le hJ1).trans hh2
  have hP0 : 0 ≤ P := le_trans (by positivity) hP
  have hV0 : 0 < V := lt_of_lt_of_le (by positivity) hV
  have hhh : h * h ≤ 2 ^ 40 := by
    calc h * h ≤ 2 ^ 20 * 2 ^ 20 := by gcongr
      _ = 2 ^ 40 := by norm_num
  have hhlow : 2 ^ (-60 : ℤ) ≤ h * h := by
    calc (2 : ℝ) ^ (-60 : ℤ) = 2 ^ (-30 : ℤ) * 2 ^ (-30 : ℤ) := by norm_num
      _ ≤ h * h := by gcongr
  have key : ∀ i, ∃ al be ga b b₀ b₁ : ℝ, i < s.J - 2 → 
      (s.dt * (lit (1 / 2) * .num σ * .num σ * (lit ((i + 1 : ℕ) : ℚ) * s.dx) * (lit ((i + 1 : ℕ) : ℚ) * s.dx)) -
        lit (1 / 2) * s.dt * s.dx * ((.num r - .num c) * (lit ((i + 1 : ℕ) : ℚ) * s.dx)) : Dbl .binary64) = .num al ∧
      (-(s.dx * s.dx) - lit 2 * (s.dt * (lit (1 / 2) * .num σ * .num σ * (lit ((i + 1 : ℕ) : ℚ) * s.dx) * (lit ((i + 1 : ℕ) : ℚ) * s.dx))) +
        s.dt * (s.dx * s.dx) * -.num r : Dbl .binary64) = .num be ∧
      (s.dt * (lit (1 / 2) * .num σ * .num σ * (lit ((i + 1 : ℕ) : ℚ) * s.dx) * (lit ((i + 1 : ℕ) : ℚ) * s.dx)) +
        lit (1 / 2) * s.dt * s.dx * ((.num r - .num c) * (lit ((i + 1 : ℕ) : ℚ) * s.dx)) : Dbl .binary64) = .num ga ∧
      (s.dx * s.dx * (s.dt * lit 0 - .num (v (i + 1))) : Dbl .binary64) = .num b ∧
      (.num b - .num al * .num l : Dbl .binary64) = .num b₀ ∧
      (.num b - .num ga * .num R : Dbl .binary64) = .num b₁ ∧
      |al - loI σ r c h k (i + 1)| ≤ h * h * (1 + P) / 2 ^ 48 ∧ |be - -dgI σ r h k (i + 1)| ≤ h * h * (1 + P) / 2 ^ 48 ∧ |ga - upI σ r c h k (i + 1)| ≤ h * h * (1 + P) / 2 ^ 48 ∧
      |b - -(h * h * v (i + 1))| ≤ h * h * (1 + P) * V / 2 ^ 48 ∧ |b₀ - (-(h * h * v (i + 1)) - loI σ r c h k (i + 1) * l)| ≤ h * h * (1 + P) * V / 2 ^ 48 ∧
      |b₁ - (-(h * h * v (i + 1)) - upI σ r c h k (i + 1) * R)| ≤ h * h * (1 + P) * V / 2 ^ 48 := by
    intro i
    by_cases hi : i < s.J - 2
    · have hx2 : ((i + 1 : ℕ) : ℝ) * h ≤ 2 ^ 20 := by
        have : ((i + 1 : ℕ) : ℝ) ≤ s.J := by exact_mod_cast (by omega : i + 1 ≤ s.J)
        refine le_trans ?_ hh2
        gcongr
      obtain ⟨al, be, ga, b, b₀, b₁, hh⟩ := implicitRow_double (σ := σ) (r := r) (c := c) hs.dx hs.dt (node_double hh hh2 hJ2 hs.dx (by omega : i + 1 < s.J)) hk hr hb hP hP2 hσ hr2 hk2 hh h1 hx2
        (by omega : i + 1 < s.J) hV2 hV (hv (i + 1) (by omega)) hlV hRV
      exact ⟨al, be, ga, b, b₀, b₁, fun _ => hh⟩
    · exact ⟨0, 0, 0, 0, 0, 0, fun a => absurd a hi⟩
  choose al be ga b b₀ b₁ hkey using key
  obtain ⟨rhs, hrhs⟩ : ∃ rhs : ℕ → ℝ, ∀ i, rhs i = if i = 0 then b₀ i else if i + 1 = s.J - 2 then b₁ i else b i := ⟨_, fun _ => rfl⟩
  have hsolve := solve_rounded (H := h * h) (Q := h * h * (1 + P)) (V := V) (l := l) (R := R) (lo := fun i => loI σ r c h k (i + 1)) (up := fun i => upI σ r c h k (i + 1))
    (dg := fun i => dgI σ r h k (i + 1)) (g := fun i => -(h * h * v (i + 1))) (al := al) (be := be) (ga := ga) (b := rhs) hJ4 hJ2 hhlow hhh
    (by
      have : h * h * (1 + P) ≤ h * h * 2 ^ 20 := mul_le_mul_of_nonneg_left (by norm_num at *; linarith) (mul_self_nonneg h)
      linarith) hV hV2 (fun i _ => (coefficients_sign hk hr hb (by omega)).1) (fun i _ => (coefficients_sign hk hr hb (by omega)).2.1)
    (fun i _ => (coefficients_sign hk hr hb (by omega)).2.2) (fun i hi => coefficients_size hk hr hP (by omega))
    (fun i hi => by
      rw [abs_neg, abs_mul, abs_of_nonneg (mul_self_nonneg h)]
      exact mul_le_mul_of_nonneg_left (hv _ (by omega)) (mul_self_nonneg h)) hlV hRV
    (fun i hi => (hkey i hi).2.2.2.2.2.2.1) (fun i hi => (hkey i hi).2.2.2.2.2.2.2.1) (fun i hi => (hkey i hi).2.2.2.2.2.2.2.2.1)
    (fun i hi => by
      obtain ⟨-, -, -, -, -, -, -, -, -, k1, k2, k3⟩ := hkey i hi
      rw [hrhs]
      by_cases c1 : i = 0
      · rw [if_pos c1, if_pos c1, if_neg (by omega), sub_zero]
        exact k2
      · rw [if_neg c1, if_neg c1]
        by_cases c2 : i + 1 = s.J - 2
        · rw [if_pos c2, if_pos c2, sub_zero]
          exact k3
        · rw [if_neg c2, if_neg c2, sub_zero, sub_zero]
          exact k1)
  obtain ⟨x, hx, hres⟩ := hsolve
  have e := step_implicit (solver := thomas) (p := BlackScholes.pde o m) (al := fun i => .num (al i)) (be := fun i => .num (be i)) (ga := fun i => .num (ga i)) (b := fun i => .num (rhs i))
    two hs.xs hs.new hl hR (fun i hi g g0 gJ => by
      obtain ⟨k1, k2, k3, k4, k5, k6, -⟩ := hkey i hi
      have : implicitRow (BlackScholes.pde o m) { s with tCurr := s.tPrev + s.dt, newPrices := vec s.J g } (i + 1) = .ok (rowOf s.J (fun i => .num (al i)) (fun i => .num (be i)) (fun i => .num (ga i)) i,
          if i + 1 = s.J - 2 then (if i + 1 = 1 then .num (b i) - .num (al i) * .num l else .num (b i)) - .num (ga i) * .num R else
            (if i + 1 = 1 then .num (b i) - .num (al i) * .num l else .num (b i))) := by
        rw [← k4, rowOf, ← k1, ← k2, ← k3]
        simp [implicitRow, sigs, hs.xs, ho, vget_vec, show i + 1 < s.J by omega, show 0 < s.J by omega, show s.J - 1 < s.J by omega, g0, gJ, BlackScholes.pde, BlackScholes.diffusion,
          BlackScholes.convection, hd, hσ', hr', hc', hs.dx2, -Dbl.lit_zero, -one_div]
      rw [this, hrhs]
      congr 2
      by_cases c1 : i = 0
      · rw [if_neg (by omega), if_pos (by omega), if_pos c1, k5]
      · rw [if_neg (show ¬ i + 1 = 1 by omega), if_neg c1]
        by_cases c2 : i + 1 = s.J - 2
        · rw [if_pos c2, if_pos c2, k6]
        · rw [if_neg c2, if_neg c2]) hx (by simp)
  refine ⟨_, fun j => if 1 ≤ j ∧ j + 1 < s.J then x (j - 1) else if j = s.J - 1 then R else l, e, ?_, rfl, rfl, rfl, rfl, ?_, ?_, ?_⟩
  · exact ⟨two, rfl, hs.dx, hs.dx2, hs.dt, hs.xs, by simp⟩
  · refine vec_congr fun j _ => ?_
    dsimp only
    split_ifs with c1
    · rw [vec_getD _ _ (by omega)]
    · rfl
    · rfl
  · refine vec_congr fun j _ => ?_
    dsimp only
    split_ifs with c1
    · rw [vec_getD _ _ (by omega)]
    · rfl
    · rfl
  · set w : ℕ → ℝ := fun j => if 1 ≤ j ∧ j + 1 < s.J then x (j - 1) else if j = s.J - 1 then R else l with hw
    have hρ : 0 ≤ (1 + P) * V / 2 ^ 41 := by positivity
    have w0 : w 0 = l := by rw [hw]; dsimp only; rw [if_neg (by omega), if_neg (by omega)]
    have wJ : w (s.J - 1) = R := by rw [hw]; dsimp only; rw [if_neg (by omega), if_pos rfl]
    refine maximum_principle (H := h * h) (lo := loI σ r c h k) (up := upI σ r c h k) (dg := dgI σ r h k) (w := fun j => w j - u' j) (by omega) (by positivity) (fun j a _ => (coefficients_sign hk hr hb a).1) (fun j a _ => (coefficients_sign hk hr hb a).2.1)
      (fun j a _ => (coefficients_sign hk hr hb a).2.2) (fun j a b => ?_) (by rw [w0]; linarith) (by rw [wJ]; linarith)
    obtain ⟨i, rfl⟩ : ∃ i, j = i + 1 := ⟨j - 1, by omega⟩
    have r1 := hres i (by omega)
    have r2 := hu (i + 1) a b
    have x1 : w (i + 1) = x i := by rw [hw]; dsimp only; rw [if_pos ⟨a, b⟩, Nat.add_sub_cancel]
    have x0 : w (i + 1 - 1) = if i = 0 then l else x (i - 1) := by
      rw [hw]; dsimp only
      by_cases c1 : i = 0
      · rw [if_neg (by omega), if_neg (by omega), if_pos c1]
      · rw [if_pos (by omega), if_neg c1]; rfl
    have x2 : w (i + 1 + 1) = if i + 1 = s.J - 2 then R else x (i + 1) := by
      rw [hw]; dsimp only
      by_cases c1 : i + 1 = s.J - 2
      · rw [if_neg (by omega), if_pos (by omega), if_pos c1]
      · rw [if_pos (by omega), if_neg c1, Nat.add_sub_cancel]
    rw [← x0, ← x1, ← x2] at r1
    have hv' := mul_le_mul_of_nonneg_left (huv (i + 1) (by omega)) (mul_self_nonneg h)
    have eq : loI σ r c h k (i + 1) * (w (i + 1 - 1) - u' (i + 1 - 1)) - dgI σ r h k (i + 1) * (w (i + 1) - u' (i + 1)) + upI σ r c h k (i + 1) * (w (i + 1 + 1) - u' (i + 1 + 1)) =
        (loI σ r c h k (i + 1) * w (i + 1 - 1) - dgI σ r h k (i + 1) * w (i + 1) + upI σ r c h k (i + 1) * w (i + 1 + 1) - -(h * h * v (i + 1))) - h * h * (v (i + 1) - u (i + 1)) := by
      linear_combination (-1) * r2
    rw [eq]
    refine (abs_sub _ _).trans ?_
    rw [abs_mul (h * h), abs_of_nonneg (mul_self_nonneg h)]
    have : h * h * (E + (1 + P) * V / 2 ^ 41) = h * h * (1 + P) * V / 2 ^ 41 + h * h * E := by ring
    rw [this]
    exact add_le_add r1 hv'

include hd hσ' hr' hc' hk hr hb hP hP2 hσ hr2 hk2 hh hh2 hJ4 hJ2 in
/-- The errors add up at most linearly. -/
theorem implicitRun_double {s : Fdm (Dbl .binary64)} (hs : DoubleGrid J h k s) (ht : s.tPrev = lit 0) (hsol : s.solved = false) {v₀ : ℕ → ℝ} (ho : s.oldPrices = vec J fun j => .num (v₀ j))
    {U : ℕ → ℕ → ℝ} {M e : ℝ} {n : ℕ} (hM : ∀ i ≤ n, ∀ j < J, |U i j| ≤ M) (hM1 : 2 ^ (-20 : ℤ) ≤ M) (hM2 : M ≤ 2 ^ 39) (hn : (n : ℝ) * ((1 + P) * (2 * M) / 2 ^ 41) + e ≤ M)
    (h0 : ∀ j < J, |v₀ j - U 0 j| ≤ e) (hU : ∀ i < n, ImplicitRows σ r c h k J (U i) (U (i + 1)))
    (hl : ∀ i < n, ∃ l : ℝ, (BlackScholes.pde o m).boundaryLeft (times s.dt (i + 1)) (lit ((0 : ℕ) : ℚ) * s.dx) = .ok (.num l) ∧ |l - U (i + 1) 0| ≤ e)
    (hR : ∀ i < n, ∃ l : ℝ, (BlackScholes.pde o m).boundaryRight (times s.dt (i + 1)) (lit ((J - 1 : ℕ) : ℚ) * s.dx) = .ok (.num l) ∧ |l - U (i + 1) (J - 1)| ≤ e) :
    ∃ (s' : Fdm (Dbl .binary64)) (v : ℕ → ℝ), Eff.forN (fun _ => step (.implicit thomas) (BlackScholes.pde o m)) n () s = (.ok (), s') ∧ DoubleGrid J h k s' ∧ s'.dx = s.dx ∧
      s'.dt = s.dt ∧ s'.tPrev = times s.dt n ∧ s'.solved = false ∧ s'.oldPrices = vec J (fun j => .num (v j)) ∧ (0 < n → s'.newPrices = vec J (fun j => .num (v j))) ∧
      ∀ j < J, |v j - U n j| ≤ n * ((1 + P) * (2 * M) / 2 ^ 41) + e := by
  have hP0 : 0 ≤ P := le_trans (by positivity) hP
  have he : 0 ≤ e := (abs_nonneg _).trans (h0 0 (by omega))
  have hM0 : 0 < M := lt_of_lt_of_le (by positivity) hM1
  have hρ : (0 : ℝ) ≤ (1 + P) * (2 * M) / 2 ^ 41 := by positivity
  have hV1 : (2 : ℝ) ^ (-20 : ℤ) ≤ 2 * M := hM1.trans (by linarith)
  induction n with
  | zero => exact ⟨s, v₀, rfl, hs, rfl, rfl, ht, hsol, ho, fun h => absurd h (lt_irrefl 0), fun j hj => by simpa using h0 j hj⟩
  | succ n ih =>
    have hn' : (n : ℝ) * ((1 + P) * (2 * M) / 2 ^ 41) + e ≤ M := by
      push_cast at hn
      linarith
    obtain ⟨s', v, e1, g, e2, e3, e4, e5, e6, e7, e8⟩ := ih (fun i hi => hM i (by omega)) hn' (fun i hi => hU i (by omega)) (fun i hi => hl i (by omega))
      (fun i hi => hR i (by omega))
    obtain ⟨l, hl1, hl2⟩ := hl n (by omega)
    obtain ⟨R, hR1, hR2⟩ := hR n (by omega)
    have hnn : (0 : ℝ) ≤ n * ((1 + P) * (2 * M) / 2 ^ 41) := by positivity
    have bound : ∀ a b : ℝ, |a - b| ≤ M → |b| ≤ M → |a| ≤ 2 * M := by
      intro a b h1 h2
      have := abs_add_le (a - b) b
      rw [sub_add_cancel] at this
      linarith
    have hv : ∀ i < J, |v i| ≤ 2 * M := fun i hi => bound _ (U n i) ((e8 i hi).trans hn') (hM n (by omega) i hi)
    obtain ⟨s'', v', f1, f2, f3, f4, f5, f6, f7, f8, f9⟩ := implicitStep_double hd hσ' hr' hc' hk hr hb hP hP2 hσ hr2 hk2 hh hh2 hJ4 hJ2 g (V := 2 * M) (u := U n) (u' := U (n + 1))
      (l := l) (R := R) e6 hV1 (by linarith) hv e8 (hU n (by omega)) (by rw [e4, e2, e3]; exact hl1) (bound _ _ (by linarith) (hM (n + 1) le_rfl 0 (by omega))) (by linarith)
      (by rw [e4, e2, e3]; exact hR1) (bound _ _ (by linarith) (hM (n + 1) le_rfl (J - 1) (by omega))) (by linarith)
    refine ⟨s'', v', ?_, f2, f4.trans e2, f3.trans e3, ?_, f6.trans e5, f7, fun _ => f8, fun j hj => ?_⟩
    · exact forN_snoc e1 f1
    · rw [f5, e4, e3]; rfl
    · push_cast
      have := f9 j hj
      linarith

end

end Fdm
end Verif
