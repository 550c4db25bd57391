import Verif.Lemmas.CNRounding

/-!
# The whole run of Crank-Nicolson in binary64
-/

set_option exponentiation.threshold 3000

namespace Verif
open Spec

namespace Fdm

/-- The equations of the code's Crank-Nicolson for the Black-Scholes equation: the old boundary values are dropped. -/
def CNRows (σ r c h k : ℝ) (J : ℕ) (old new : ℕ → ℝ) : Prop :=
  ∀ j, 1 ≤ j → j + 1 < J → loI σ r c h (k / 2) j * new (j - 1) - dgI σ r h (k / 2) j * new j + upI σ r c h (k / 2) j * new (j + 1) =
    -(loI σ r c h (k / 2) j * withoutEnds J old (j - 1) + exC σ r h k j * withoutEnds J old j + upI σ r c h (k / 2) j * withoutEnds J old (j + 1))

/-- The scheme for the Black-Scholes equation as a linear system. -/
theorem cnRows_of_scheme {q : Problem} {σ r c h k t t' : ℝ} (hq : BlackScholesCoefficients q σ r c) (hh : h ≠ 0) (hk : k ≠ 0) {J : ℕ} {old new : ℕ → ℝ}
    (hs : ∀ j, 1 ≤ j → j + 1 < J → (new j - old j) / k = 1 / 2 * central q h t (withoutEnds J old) j + 1 / 2 * central q h t' new j) : CNRows σ r c h k J old new := by
  intro j h1 h2
  have e := hs j h1 h2
  have ho : withoutEnds J old j = old j := if_pos ⟨h1, h2⟩
  rw [div_eq_iff hk, central, central, hq.D, hq.C, hq.R, hq.f, hq.D, hq.C, hq.R, hq.f, ← ho] at e
  generalize withoutEnds J old = w at *
  have e' : new j - w j = (1 / 2 * (1 / 2 * σ ^ 2 * (j : ℝ) ^ 2 * (new (j + 1) - 2 * new j + new (j - 1)) + (r - c) * j * (new (j + 1) - new (j - 1)) / 2 - r * new j) +
      1 / 2 * (1 / 2 * σ ^ 2 * (j : ℝ) ^ 2 * (w (j + 1) - 2 * w j + w (j - 1)) + (r - c) * j * (w (j + 1) - w (j - 1)) / 2 - r * w j)) * k := by
    rw [e]
    field_simp
    ring
  unfold loI upI dgI exC
  linear_combination (-(h * h)) * e'

/-- A weighted sum with weights that are not negative. -/
theorem weighted {H E lo ex up a b c : ℝ} (h1 : 0 ≤ lo) (h2 : 0 ≤ ex) (h3 : 0 ≤ up) (hs : lo + ex + up ≤ H) (ha : |a| ≤ E) (hb : |b| ≤ E) (hc : |c| ≤ E) :
    |lo * a + ex * b + up * c| ≤ H * E := by
  have hE : 0 ≤ E := (abs_nonneg _).trans ha
  have := mul_le_mul_of_nonneg_right hs hE
  refine (abs_add_le _ _).trans ((add_le_add (abs_add_le _ _) le_rfl).trans ?_)
  rw [abs_mul, abs_mul, abs_mul, abs_of_nonneg h1, abs_of_nonneg h2, abs_of_nonneg h3]
  have := mul_le_mul_of_nonneg_left ha h1
  have := mul_le_mul_of_nonneg_left hb h2
  have := mul_le_mul_of_nonneg_left hc h3
  linarith

theorem withoutEnds_bounded {J : ℕ} {u : ℕ → ℝ} {M : ℝ} (hM : 0 ≤ M) (hu : ∀ j < J, |u j| ≤ M) (j : ℕ) : |withoutEnds J u j| ≤ M := by
  unfold withoutEnds
  split_ifs with h
  · exact hu j (by omega)
  · rwa [abs_zero]

/-- The levels are bounded by the data. -/
theorem cn_bounded {σ r c h k M : ℝ} {J n : ℕ} (hJ : 0 < J) (hh : 0 < h) (hk : 0 ≤ k) (hr : 0 ≤ r) (hb : |r - c| ≤ σ ^ 2) (hP : k * (σ ^ 2 * (J : ℝ) ^ 2 + r) ≤ 2)
    {U : ℕ → ℕ → ℝ} (h0 : ∀ j < J, |U 0 j| ≤ M) (hU : ∀ i < n, CNRows σ r c h k J (U i) (U (i + 1)))
    (hl : ∀ i < n, |U (i + 1) 0| ≤ M) (hR : ∀ i < n, |U (i + 1) (J - 1)| ≤ M) : ∀ i ≤ n, ∀ j < J, |U i j| ≤ M := by
  have hM : 0 ≤ M := (abs_nonneg _).trans (h0 0 hJ)
  have hk' : 0 ≤ k / 2 := by linarith
  intro i
  induction i with
  | zero => exact fun _ => h0
  | succ i ih =>
    intro hi
    refine maximum_principle (H := h * h) (lo := loI σ r c h (k / 2)) (up := upI σ r c h (k / 2)) (dg := dgI σ r h (k / 2)) hJ (by positivity) (fun j a _ => (coefficients_sign hk' hr hb a).1)
      (fun j a _ => (coefficients_sign hk' hr hb a).2.1) (fun j a _ => (coefficients_sign hk' hr hb a).2.2) (fun j a b => ?_) (hl i hi) (hR i hi)
    rw [hU i hi j a b, abs_neg]
    obtain ⟨x1, x2⟩ := exC_sign (c := c) (h := h) hk hr hP (by omega : j ≤ J)
    have hb' := withoutEnds_bounded hM (ih (by omega))
    exact weighted (coefficients_sign hk' hr hb a).1 x1 (coefficients_sign hk' hr hb a).2.1 x2 (hb' _) (hb' _) (hb' _)

/-- The Thomas algorithm returns something for every matrix. -/
theorem thomas_returns_any {F : Type} [Fl F] [Add F] [Sub F] [Mul F] [Div F] {A : Mat F} {b : List F} {n : ℕ} (h2 : 2 ≤ n) (hm : n - 2 ≤ INT_MAX) (hr : A.rows = n) (hc : A.cols = n)
    (hb : b.length = n) : ∃ x, thomas A b = .ok x ∧ x.length = n := by
  unfold thomas
  rw [if_neg (by omega), if_neg (by omega)]
  exact ⟨_, rfl, by simp [hr]⟩

section
variable {o : OptObj (Dbl .binary64)} {m : Market (Dbl .binary64)} {d : StockData (Dbl .binary64)} {σ r c h k V : ℝ} {J : ℕ}
  (hd : BlackScholes.stock o m = .ok d) (hσ' : d.sigma = .num σ) (hr' : m.r = .num r) (hc' : d.coupon.getD (lit 0) = .num c)
  (hk : 0 ≤ k) (hr : 0 ≤ r) (hb : |r - c| ≤ σ ^ 2) (hP : k * (σ ^ 2 * (J : ℝ) ^ 2 + r) ≤ 2)
  (hσ : |σ| ≤ 2 ^ 10) (hr2 : r ≤ 2 ^ 10) (hk2 : k ≤ 2 ^ 10) (hh : 2 ^ (-30 : ℤ) ≤ h) (hh2 : J * h ≤ 2 ^ 20) (hJ4 : 4 ≤ J) (hJ2 : J ≤ 2 ^ 20)

set_option maxHeartbeats 2000000 in
include hd hσ' hr' hc' hk hr hb hP hσ hr2 hk2 hh hh2 hJ4 hJ2 in
/-- One step of the run. -/
theorem cnStep_double {s : Fdm (Dbl .binary64)} (hs : DoubleGrid J h k s) (hsb : s.b.length = J - 2) {v u u' : ℕ → ℝ} {E l R : ℝ} (ho : s.oldPrices = vec J fun j => .num (v j))
    (hV : 2 ^ (-20 : ℤ) ≤ V) (hV2 : V ≤ 2 ^ 40) (hv : ∀ i < J, |v i| ≤ V) (huv : ∀ i < J, |v i - u i| ≤ E) (hu : CNRows σ r c h k J u u')
    (hl : (BlackScholes.pde o m).boundaryLeft (s.tPrev + s.dt) (lit ((0 : ℕ) : ℚ) * s.dx) = .ok (.num l)) (hlV : |l| ≤ V) (hle : |l - u' 0| ≤ E)
    (hR : (BlackScholes.pde o m).boundaryRight (s.tPrev + s.dt) (lit ((J - 1 : ℕ) : ℚ) * s.dx) = .ok (.num R)) (hRV : |R| ≤ V) (hRe : |R - u' (J - 1)| ≤ E) :
    ∃ (s' : Fdm (Dbl .binary64)) (v' : ℕ → ℝ), step (.crankNicolson thomas) (BlackScholes.pde o m) s = (.ok (), s') ∧ DoubleGrid J h k s' ∧ s'.b.length = J - 2 ∧ s'.dt = s.dt ∧ s'.dx = s.dx ∧
      s'.tPrev = s.tPrev + s.dt ∧ s'.solved = s.solved ∧ s'.oldPrices = vec J (fun j => .num (v' j)) ∧ s'.newPrices = vec J (fun j => .num (v' j)) ∧
      ∀ j < J, |v' j - u' j| ≤ E + V / 2 ^ 38 := by
  obtain rfl := hs.size
  have hk' : 0 ≤ k / 2 := by linarith
  have hE : 0 ≤ E := (abs_nonneg _).trans hle
  have hh0 : 0 < h := lt_of_lt_of_le (by positivity) hh
  have hJ1 : (1 : ℝ) ≤ s.J := by exact_mod_cast (by omega : 1 ≤ s.J)
  have h1 : h ≤ 2 ^ 20 := (le_mul_of_one_le_left hh0.le hJ1).trans hh2
  have hV0 : 0 < V := lt_of_lt_of_le (by positivity) hV
  have hhh : h * h ≤ 2 ^ 40 := by
    calc h * h ≤ 2 ^ 20 * 2 ^ 20 := by gcongr
      _ = 2 ^ 40 := by norm_num
  have hhlow : 2 ^ (-60 : ℤ) ≤ h * h := by
    calc (2 : ℝ) ^ (-60 : ℤ) = 2 ^ (-30 : ℤ) * 2 ^ (-30 : ℤ) := by norm_num
      _ ≤ h * h := by gcongr
  obtain ⟨A, hA⟩ : ∃ A : ℕ → Dbl .binary64, ∀ i, A i = s.dt * (lit (1 / 2) * .num σ * .num σ * (lit ((i + 1 : ℕ) : ℚ) * s.dx) * (lit ((i + 1 : ℕ) : ℚ) * s.dx)) := ⟨_, fun _ => rfl⟩
  obtain ⟨B, hB⟩ : ∃ B : ℕ → Dbl .binary64, ∀ i, B i = lit (1 / 2) * s.dt * s.dx * ((.num r - .num c) * (lit ((i + 1 : ℕ) : ℚ) * s.dx)) := ⟨_, fun _ => rfl⟩
  obtain ⟨al, hal⟩ : ∃ f : ℕ → Dbl .binary64, ∀ i, f i = lit (1 / 2) * (A i - B i) := ⟨_, fun _ => rfl⟩
  obtain ⟨be, hbe⟩ : ∃ f : ℕ → Dbl .binary64, ∀ i, f i = -(s.dx * s.dx) - A i + lit (1 / 2) * s.dt * (s.dx * s.dx) * -.num r := ⟨_, fun _ => rfl⟩
  obtain ⟨ga, hga⟩ : ∃ f : ℕ → Dbl .binary64, ∀ i, f i = lit (1 / 2) * (A i + B i) := ⟨_, fun _ => rfl⟩
  obtain ⟨al', hal'⟩ : ∃ f : ℕ → Dbl .binary64, ∀ i, f i = -lit (1 / 2) * (A i - B i) := ⟨_, fun _ => rfl⟩
  obtain ⟨be', hbe'⟩ : ∃ f : ℕ → Dbl .binary64, ∀ i, f i = -(s.dx * s.dx) + A i - lit (1 / 2) * s.dt * (s.dx * s.dx) * -.num r := ⟨_, fun _ => rfl⟩
  obtain ⟨ga', hga'⟩ : ∃ f : ℕ → Dbl .binary64, ∀ i, f i = -lit (1 / 2) * (A i + B i) := ⟨_, fun _ => rfl⟩
  obtain ⟨b, hbb⟩ : ∃ b : Dbl .binary64, b = lit (1 / 2) * (s.dx * s.dx) * s.dt * (lit 0 + lit 0) := ⟨_, rfl⟩
  have key : ∀ i, ∃ yal ybe yga y₀ y y₁ : ℝ, i < s.J - 2 → al i = .num yal ∧ be i = .num ybe ∧ ga i = .num yga ∧
      b - al i * .num l + be' i * .num (v (i + 1)) + ga' i * .num (v (i + 2)) = .num y₀ ∧
      b + be' i * .num (v (i + 1)) + al' i * .num (v i) + ga' i * .num (v (i + 2)) = .num y ∧
      b - ga i * .num R + be' i * .num (v (i + 1)) + al' i * .num (v i) = .num y₁ ∧
      |yal - loI σ r c h (k / 2) (i + 1)| ≤ 8 * (h * h) / 2 ^ 48 ∧ |ybe - -dgI σ r h (k / 2) (i + 1)| ≤ 8 * (h * h) / 2 ^ 48 ∧ |yga - upI σ r c h (k / 2) (i + 1)| ≤ 8 * (h * h) / 2 ^ 48 ∧
      |y₀ - (-(exC σ r h k (i + 1) * v (i + 1) + upI σ r c h (k / 2) (i + 1) * v (i + 2)) - loI σ r c h (k / 2) (i + 1) * l)| ≤ 8 * (h * h) * V / 2 ^ 48 ∧
      |y - -(loI σ r c h (k / 2) (i + 1) * v i + exC σ r h k (i + 1) * v (i + 1) + upI σ r c h (k / 2) (i + 1) * v (i + 2))| ≤ 8 * (h * h) * V / 2 ^ 48 ∧
      |y₁ - (-(loI σ r c h (k / 2) (i + 1) * v i + exC σ r h k (i + 1) * v (i + 1)) - upI σ r c h (k / 2) (i + 1) * R)| ≤ 8 * (h * h) * V / 2 ^ 48 := by
    intro i
    by_cases hi : i < s.J - 2
    · have hx2 : ((i + 1 : ℕ) : ℝ) * h ≤ 2 ^ 20 := by
        have : ((i + 1 : ℕ) : ℝ) ≤ s.J := by exact_mod_cast (by omega : i + 1 ≤ s.J)
        refine le_trans ?_ hh2
        gcongr
      obtain ⟨y1, y2, y3, y4, y5, y6, hy⟩ := cnRow_double (σ := σ) (r := r) (c := c) hs.dx hs.dt (node_double hh hh2 hJ2 hs.dx (by omega : i + 1 < s.J)) hk hr hb hP hσ hr2 hk2 hh h1 hx2
        (by omega : i + 1 < s.J) hV2 hV (hv i (by omega)) (hv (i + 1) (by omega)) (hv (i + 2) (by omega)) hlV hRV (hA i) (hB i) (hal i) (hbe i) (hga i) (hal' i) (hbe' i) (hga' i) hbb
      exact ⟨y1, y2, y3, y4, y5, y6, fun _ => hy⟩
    · exact ⟨0, 0, 0, 0, 0, 0, fun a => absurd a hi⟩
  choose yal ybe yga y₀ y y₁ hkey using key
  obtain ⟨rhs, hrhs⟩ : ∃ rhs : ℕ → ℝ, ∀ i, rhs i = if i = 0 then y₀ i else if i + 1 = s.J - 2 then y₁ i else y i := ⟨_, fun _ => rfl⟩
  have ends : ∀ i, withoutEnds s.J v i = if 1 ≤ i ∧ i + 1 < s.J then v i else 0 := fun _ => rfl
  have hbw := withoutEnds_bounded hV0.le hv
  have hsolve := solve_rounded (H := h * h) (Q := 8 * (h * h)) (V := V) (l := l) (R := R) (lo := fun i => loI σ r c h (k / 2) (i + 1)) (up := fun i => upI σ r c h (k / 2) (i + 1))
    (dg := fun i => dgI σ r h (k / 2) (i + 1)) (g := fun i => -(loI σ r c h (k / 2) (i + 1) * withoutEnds s.J v i + exC σ r h k (i + 1) * withoutEnds s.J v (i + 1) +
      upI σ r c h (k / 2) (i + 1) * withoutEnds s.J v (i + 2))) (al := yal) (be := ybe) (ga := yga) (b := rhs) hJ4 hJ2 hhlow hhh
    (by
      have : 0 ≤ h * h := mul_self_nonneg h
      linarith) hV hV2 (fun i _ => (coefficients_sign hk' hr hb (by omega)).1) (fun i _ => (coefficients_sign hk' hr hb (by omega)).2.1)
    (fun i _ => (coefficients_sign hk' hr hb (by omega)).2.2) (fun i hi => (coefficients_size (P := 1) (J := s.J) hk' hr (by linarith) (by omega : i + 1 ≤ s.J)).trans (by
      have : 0 ≤ h * h := mul_self_nonneg h
      linarith))
    (fun i hi => by
      rw [abs_neg]
      obtain ⟨x1, x2⟩ := exC_sign (c := c) (h := h) hk hr hP (by omega : i + 1 ≤ s.J)
      exact weighted (coefficients_sign hk' hr hb (by omega)).1 x1 (coefficients_sign hk' hr hb (by omega)).2.1 x2 (hbw _) (hbw _) (hbw _)) hlV hRV
    (fun i hi => (hkey i hi).2.2.2.2.2.2.1) (fun i hi => (hkey i hi).2.2.2.2.2.2.2.1) (fun i hi => (hkey i hi).2.2.2.2.2.2.2.2.1)
    (fun i hi => by
      obtain ⟨-, -, -, -, -, -, -, -, -, k1, k2, k3⟩ := hkey i hi
      rw [hrhs, ends i, ends (i + 1), ends (i + 2), if_pos (show 1 ≤ i + 1 ∧ i + 1 + 1 < s.J by omega)]
      by_cases c1 : i = 0
      · rw [if_pos c1, if_pos c1, if_neg (show ¬ (1 ≤ i ∧ i + 1 < s.J) by omega), if_pos (show 1 ≤ i + 2 ∧ i + 2 + 1 < s.J by omega), if_neg (show ¬ i + 1 = s.J - 2 by omega), sub_zero, mul_zero, zero_add]
        exact k1
      · rw [if_neg c1, if_neg c1, if_pos (show 1 ≤ i ∧ i + 1 < s.J by omega)]
        by_cases c2 : i + 1 = s.J - 2
        · rw [if_pos c2, if_pos c2, sub_zero, if_neg (show ¬ (1 ≤ i + 2 ∧ i + 2 + 1 < s.J) by omega), mul_zero, add_zero]
          exact k3
        · rw [if_neg c2, if_neg c2, if_pos (show 1 ≤ i + 2 ∧ i + 2 + 1 < s.J by omega), sub_zero, sub_zero]
          exact k2)
  obtain ⟨x, hx, hres⟩ := hsolve
  have e := step_crankNicolson (solver := thomas) (p := BlackScholes.pde o m) (al := fun i => .num (yal i)) (be := fun i => .num (ybe i)) (ga := fun i => .num (yga i)) (b := fun i => .num (rhs i))
    (by omega) hs.xs hs.new hsb hl hR (fun A b hA1 hA2 hA3 => thomas_returns_any (by omega) (by unfold INT_MAX; omega) hA1 hA2 hA3) (fun i hi g cc g0 gJ => by
      obtain ⟨k1, k2, k3, k4, k5, k6, -⟩ := hkey i hi
      have : cnRow (BlackScholes.pde o m) { s with tCurr := s.tPrev + s.dt, newPrices := vec s.J g, b := cc } (i + 1) = .ok (rowOf s.J (fun i => .num (yal i)) (fun i => .num (ybe i)) (fun i => .num (yga i)) i,
          if i + 1 < s.J - 2 then
            (if i + 1 > 1 then (if i + 1 = s.J - 2 then (if i + 1 = 1 then b - al i * .num l else b) - ga i * .num R else (if i + 1 = 1 then b - al i * .num l else b)) + be' i * .num (v (i + 1)) + al' i * .num (v i)
              else (if i + 1 = s.J - 2 then (if i + 1 = 1 then b - al i * .num l else b) - ga i * .num R else (if i + 1 = 1 then b - al i * .num l else b)) + be' i * .num (v (i + 1))) + ga' i * .num (v (i + 2))
          else
            (if i + 1 > 1 then (if i + 1 = s.J - 2 then (if i + 1 = 1 then b - al i * .num l else b) - ga i * .num R else (if i + 1 = 1 then b - al i * .num l else b)) + be' i * .num (v (i + 1)) + al' i * .num (v i)
              else (if i + 1 = s.J - 2 then (if i + 1 = 1 then b - al i * .num l else b) - ga i * .num R else (if i + 1 = 1 then b - al i * .num l else b)) + be' i * .num (v (i + 1)))) := by
        rw [rowOf, ← k1, ← k2, ← k3, hal, hbe, hga, hal', hbe', hga', hA, hB, hbb]
        simp [cnRow, sigs, hs.xs, ho, vget_vec, show i + 1 < s.J by omega, show i < s.J by omega, show i + 1 + 1 < s.J by omega, show 0 < s.J by omega, show s.J - 1 < s.J by omega, g0, gJ, BlackScholes.pde,
          BlackScholes.diffusion, BlackScholes.convection, hd, hσ', hr', hc', hs.dx2, -Dbl.lit_zero, -one_div]
      rw [this, hrhs]
      congr 2
      by_cases c1 : i = 0
      · rw [if_pos (by omega), if_neg (by omega), if_neg (by omega), if_pos (by omega), if_pos c1, k4]
      · rw [if_neg c1]
        by_cases c2 : i + 1 = s.J - 2
        · rw [if_neg (by omega), if_pos (by omega), if_pos c2, if_neg (by omega), if_pos c2, k6]
        · rw [if_pos (by omega), if_pos (by omega), if_neg c2, if_neg (by omega), if_neg c2, k5]) hx
  refine ⟨_, fun j => if 1 ≤ j ∧ j + 1 < s.J then x (j - 1) else if j = s.J - 1 then R else l, e, ?_, by simp, rfl, rfl, rfl, rfl, ?_, ?_, ?_⟩
  · exact ⟨hs.two, rfl, hs.dx, hs.dx2, hs.dt, hs.xs, by simp⟩
  · refine vec_congr fun j _ => ?_
    dsimp only
    split_ifs with c1
    · rw [vec_getD _ _ (by omega)]
    · rfl
    · rfl
  · refine vec_congr fun j _ => ?_
    dsimp only
    split_ifs with c1
    · rw [vec_getD _ _ (by omega)]
    · rfl
    · rfl
  · set w : ℕ → ℝ := fun j => if 1 ≤ j ∧ j + 1 < s.J then x (j - 1) else if j = s.J - 1 then R else l with hw
    have hρ : 0 ≤ V / 2 ^ 38 := by positivity
    have w0 : w 0 = l := by rw [hw]; dsimp only; rw [if_neg (by omega), if_neg (by omega)]
    have wJ : w (s.J - 1) = R := by rw [hw]; dsimp only; rw [if_neg (by omega), if_pos rfl]
    refine maximum_principle (H := h * h) (lo := loI σ r c h (k / 2)) (up := upI σ r c h (k / 2)) (dg := dgI σ r h (k / 2)) (w := fun j => w j - u' j) (by omega) (by positivity)
      (fun j a _ => (coefficients_sign hk' hr hb a).1) (fun j a _ => (coefficients_sign hk' hr hb a).2.1)
      (fun j a _ => (coefficients_sign hk' hr hb a).2.2) (fun j a b => ?_) (by rw [w0]; linarith) (by rw [wJ]; linarith)
    obtain ⟨i, rfl⟩ : ∃ i, j = i + 1 := ⟨j - 1, by omega⟩
    have r1 := hres i (by omega)
    have r2 := hu (i + 1) a b
    have x1 : w (i + 1) = x i := by rw [hw]; dsimp only; rw [if_pos ⟨a, b⟩, Nat.add_sub_cancel]
    have x0 : w (i + 1 - 1) = if i = 0 then l else x (i - 1) := by
      rw [hw]; dsimp only
      by_cases c1 : i = 0
      · rw [if_neg (by omega), if_neg (by omega), if_pos c1]
      · rw [if_pos (by omega), if_neg c1]; rfl
    have x2 : w (i + 1 + 1) = if i + 1 = s.J - 2 then R else x (i + 1) := by
      rw [hw]; dsimp only
      by_cases c1 : i + 1 = s.J - 2
      · rw [if_neg (by omega), if_pos (by omega), if_pos c1]
      · rw [if_pos (by omega), if_neg c1, Nat.add_sub_cancel]
    rw [← x0, ← x1, ← x2] at r1
    rw [Nat.add_sub_cancel] at r1 r2 ⊢
    have hvu : ∀ n, |withoutEnds s.J v n - withoutEnds s.J u n| ≤ E := by
      intro n
      unfold withoutEnds
      split_ifs with hn
      · exact huv n (by omega)
      · rwa [sub_zero, abs_zero]
    obtain ⟨y1, y2⟩ := exC_sign (c := c) (h := h) hk hr hP (by omega : i + 1 ≤ s.J)
    have hwt := weighted (coefficients_sign (h := h) hk' hr hb a).1 y1 (coefficients_sign hk' hr hb a).2.1 y2 (hvu i) (hvu (i + 1)) (hvu (i + 1 + 1))
    have eq : loI σ r c h (k / 2) (i + 1) * (w i - u' i) - dgI σ r h (k / 2) (i + 1) * (w (i + 1) - u' (i + 1)) + upI σ r c h (k / 2) (i + 1) * (w (i + 1 + 1) - u' (i + 1 + 1)) =
        (loI σ r c h (k / 2) (i + 1) * w i - dgI σ r h (k / 2) (i + 1) * w (i + 1) + upI σ r c h (k / 2) (i + 1) * w (i + 1 + 1) -
          -(loI σ r c h (k / 2) (i + 1) * withoutEnds s.J v i + exC σ r h k (i + 1) * withoutEnds s.J v (i + 1) + upI σ r c h (k / 2) (i + 1) * withoutEnds s.J v (i + 2))) -
        (loI σ r c h (k / 2) (i + 1) * (withoutEnds s.J v i - withoutEnds s.J u i) + exC σ r h k (i + 1) * (withoutEnds s.J v (i + 1) - withoutEnds s.J u (i + 1)) +
          upI σ r c h (k / 2) (i + 1) * (withoutEnds s.J v (i + 1 + 1) - withoutEnds s.J u (i + 1 + 1))) := by
      linear_combination (-1) * r2
    rw [eq]
    refine (abs_sub _ _).trans ?_
    have : h * h * (E + V / 2 ^ 38) = 8 * (h * h) * V / 2 ^ 41 + h * h * E := by ring
    rw [this]
    exact add_le_add r1 hwt

include hd hσ' hr' hc' hk hr hb hP hσ hr2 hk2 hh hh2 hJ4 hJ2 in
/-- The errors add up at most linearly. -/
theorem cnRun_double {s : Fdm (Dbl .binary64)} (hs : DoubleGrid J h k s) (hsb : s.b.length = J - 2) (ht : s.tPrev = lit 0) (hsol : s.solved = false) {v₀ : ℕ → ℝ} (ho : s.oldPrices = vec J fun j => .num (v₀ j))
    {U : ℕ → ℕ → ℝ} {M e : ℝ} {n : ℕ} (hM : ∀ i ≤ n, ∀ j < J, |U i j| ≤ M) (hM1 : 2 ^ (-20 : ℤ) ≤ M) (hM2 : M ≤ 2 ^ 39) (hn : (n : ℝ) * (M / 2 ^ 37) + e ≤ M)
    (h0 : ∀ j < J, |v₀ j - U 0 j| ≤ e) (hU : ∀ i < n, CNRows σ r c h k J (U i) (U (i + 1)))
    (hl : ∀ i < n, ∃ l : ℝ, (BlackScholes.pde o m).boundaryLeft (times s.dt (i + 1)) (lit ((0 : ℕ) : ℚ) * s.dx) = .ok (.num l) ∧ |l - U (i + 1) 0| ≤ e)
    (hR : ∀ i < n, ∃ l : ℝ, (BlackScholes.pde o m).boundaryRight (times s.dt (i + 1)) (lit ((J - 1 : ℕ) : ℚ) * s.dx) = .ok (.num l) ∧ |l - U (i + 1) (J - 1)| ≤ e) :
    ∃ (s' : Fdm (Dbl .binary64)) (v : ℕ → ℝ), Eff.forN (fun _ => step (.crankNicolson thomas) (BlackScholes.pde o m)) n () s = (.ok (), s') ∧ DoubleGrid J h k s' ∧ s'.b.length = J - 2 ∧ s'.dx = s.dx ∧
      s'.dt = s.dt ∧ s'.tPrev = times s.dt n ∧ s'.solved = false ∧ s'.oldPrices = vec J (fun j => .num (v j)) ∧ (0 < n → s'.newPrices = vec J (fun j => .num (v j))) ∧
      ∀ j < J, |v j - U n j| ≤ n * (M / 2 ^ 37) + e := by
  have he : 0 ≤ e := (abs_nonneg _).trans (h0 0 (by omega))
  have hM0 : 0 < M := lt_of_lt_of_le (by positivity) hM1
  have hρ : (0 : ℝ) ≤ M / 2 ^ 37 := by positivity
  have hV1 : (2 : ℝ) ^ (-20 : ℤ) ≤ 2 * M := hM1.trans (by linarith)
  induction n with
  | zero => exact ⟨s, v₀, rfl, hs, hsb, rfl, rfl, ht, hsol, ho, fun h => absurd h (lt_irrefl 0), fun j hj => by simpa using h0 j hj⟩
  | succ n ih =>
    have hn' : (n : ℝ) * (M / 2 ^ 37) + e ≤ M := by
      push_cast at hn
      linarith
    obtain ⟨s', v, e1, g, gb, e2, e3, e4, e5, e6, e7, e8⟩ := ih (fun i hi => hM i (by omega)) hn' (fun i hi => hU i (by omega)) (fun i hi => hl i (by omega))
      (fun i hi => hR i (by omega))
    obtain ⟨l, hl1, hl2⟩ := hl n (by omega)
    obtain ⟨R, hR1, hR2⟩ := hR n (by omega)
    have hnn : (0 : ℝ) ≤ n * (M / 2 ^ 37) := by positivity
    have bound : ∀ a b : ℝ, |a - b| ≤ M → |b| ≤ M → |a| ≤ 2 * M := by
      intro a b h1 h2
      have := abs_add_le (a - b) b
      rw [sub_add_cancel] at this
      linarith
    have hv : ∀ i < J, |v i| ≤ 2 * M := fun i hi => bound _ (U n i) ((e8 i hi).trans hn') (hM n (by omega) i hi)
    obtain ⟨s'', v', f1, f2, fb, f3, f4, f5, f6, f7, f8, f9⟩ := cnStep_double hd hσ' hr' hc' hk hr hb hP hσ hr2 hk2 hh hh2 hJ4 hJ2 g gb (V := 2 * M) (u := U n) (u' := U (n + 1))
      (l := l) (R := R) e6 hV1 (by linarith) hv e8 (hU n (by omega)) (by rw [e4, e2, e3]; exact hl1) (bound _ _ (by linarith) (hM (n + 1) le_rfl 0 (by omega))) (by linarith)
      (by rw [e4, e2, e3]; exact hR1) (bound _ _ (by linarith) (hM (n + 1) le_rfl (J - 1) (by omega))) (by linarith)
    refine ⟨s'', v', ?_, f2, fb, f4.trans e2, f3.trans e3, ?_, f6.trans e5, f7, fun _ => f8, fun j hj => ?_⟩
    · exact forN_snoc e1 f1
    · rw [f5, e4, e3]; rfl
    · push_cast
      have := f9 j hj
      linarith

include hd hσ' hr' hc' hr hb hP hσ hr2 hk2 hh hh2 hJ4 hJ2 in
/-- The price in doubles against the price of an exact run with the same number of steps. -/
theorem cnPrice_double (hk : 0 < k) {s : Fdm (Dbl .binary64)} (hs : DoubleGrid J h k s) (hsb : s.b.length = J - 2) (ht : s.tPrev = lit 0) (hsol : s.solved = false) {v₀ : ℕ → ℝ}
    (ho : s.oldPrices = vec J fun j => .num (v₀ j)) {q : Problem} {p : Pde ℝ} (hp : Describes p q) (hq : BlackScholesCoefficients q σ r c) (hdom : DiffusionDominates q J h) {X T M e S : ℝ}
    {n : ℕ} (hn0 : 0 < n)
    (hhX : h = X / (J - 1)) (hkT : k = T / (((n + 1 : ℕ) : ℝ) - 1)) (hM : 2 ^ (-20 : ℤ) ≤ M) (hM2 : M ≤ 2 ^ 39)
    (hn : (n : ℝ) * (M / 2 ^ 37) + e ≤ M)
    (h0 : ∀ j < J, |v₀ j - q.initial (j * h)| ≤ e) (h0M : ∀ j < J, |q.initial (j * h)| ≤ M)
    (hl : ∀ i < n, ∃ l : ℝ, (BlackScholes.pde o m).boundaryLeft (times s.dt (i + 1)) (lit ((0 : ℕ) : ℚ) * s.dx) = .ok (.num l) ∧ |l - q.left (i * k + k) 0| ≤ e)
    (hlM : ∀ i < n, |q.left (i * k + k) 0| ≤ M)
    (hR : ∀ i < n, ∃ l : ℝ, (BlackScholes.pde o m).boundaryRight (times s.dt (i + 1)) (lit ((J - 1 : ℕ) : ℚ) * s.dx) = .ok (.num l) ∧ |l - q.right (i * k + k) X| ≤ e)
    (hRM : ∀ i < n, |q.right (i * k + k) X| ≤ M)
    {fuel : ℕ} (hloop : timeLoop (.crankNicolson thomas) (BlackScholes.pde o m) fuel s = Eff.forN (fun _ => step (.crankNicolson thomas) (BlackScholes.pde o m)) n () s)
    (h1 : h ≤ S) (h2 : S + h ≤ X) {junk : ℕ → ℝ} {s' : Fdm ℝ} (hc : construct (.crankNicolson thomas) X J T (n + 1) p junk = .ok s') {fuel' : ℕ} (hf : n + 1 ≤ fuel') :
    ∃ y y' : ℝ, (calculatePrice (.crankNicolson thomas) .linear (BlackScholes.pde o m) (.ok (.num S)) fuel s).1 = .ok (.num y) ∧
      (calculatePrice (.crankNicolson thomas) .linear p (.ok S) fuel' s').1 = .ok y' ∧
      |y - y'| ≤ 2 * (n * (M / 2 ^ 37) + e) + 2 ^ (-45 : ℤ) * (J * M) := by
  have hh0 : 0 < h := lt_of_lt_of_le (by positivity) hh
  have two : 2 ≤ J := hs.size ▸ hs.two
  have hJ1 : (0 : ℝ) < J - 1 := by
    have : (2 : ℝ) ≤ J := by exact_mod_cast two
    linarith
  have hX : 0 < X := by linarith
  have hT : 0 < T := by
    have hn1 : (0 : ℝ) < ((n + 1 : ℕ) : ℝ) - 1 := by
      push_cast
      have : (0 : ℝ) < n := by exact_mod_cast hn0
      linarith
    rw [hkT] at hk
    by_contra hneg
    exact absurd hk (not_lt.mpr (div_nonpos_of_nonpos_of_nonneg (not_lt.mp hneg) hn1.le))
  obtain ⟨s1, hs1, hu⟩ := C56_partial p q hp X T J (n + 1) junk hJ4 (by omega) (by omega) hX hT (by rw [← hhX]; exact hdom)
  obtain rfl : s1 = s' := Res.ok.inj (hs1.symm.trans hc)
  obtain ⟨U, u1, u2, u3⟩ := hu fuel' hf
  rw [show n + 1 - 1 = n by omega] at u1 u3
  rw [← hhX] at u2
  have u3' : ∀ i < n, CNRows σ r c h k J (U i) (U (i + 1)) ∧ BoundaryAt q J X (i * k + k) (U (i + 1)) := by
    intro i hi
    have := u3 i hi
    rw [← hhX, ← hkT] at this
    exact ⟨cnRows_of_scheme hq hh0.ne' hk.ne' this.1, this.2⟩
  have hU : ∀ i < n, CNRows σ r c h k J (U i) (U (i + 1)) := fun i hi => (u3' i hi).1
  have hb' := cn_bounded (U := U) (n := n) (M := M) (by omega) hh0 hk.le hr hb hP (fun j hj => by rw [u2 j hj]; exact h0M j hj) hU
    (fun i hi => by rw [(u3' i hi).2.1]; exact hlM i hi) (fun i hi => by rw [(u3' i hi).2.2]; exact hRM i hi)
  obtain ⟨t, v, e1, g, -, e2, e3, e4, e5, e6, e7, e8⟩ := cnRun_double hd hσ' hr' hc' hk.le hr hb hP hσ hr2 hk2 hh hh2 hJ4 hJ2 hs hsb ht hsol ho (U := U) hb' hM hM2 hn
    (fun j hj => by rw [u2 j hj]; exact h0 j hj) hU (fun i hi => by rw [(u3' i hi).2.1]; exact hl i hi)
    (fun i hi => by rw [(u3' i hi).2.2]; exact hR i hi)
  have hlast : ((J - 1 : ℕ) : ℝ) * h = X := by
    rw [hhX, Nat.cast_sub (by omega), Nat.cast_one]
    field_simp
  obtain ⟨y, y', i1, i2, i3⟩ := Interp.interpolate_double (S := S) (x := fun j => lit (j : ℚ) * t.dx) (v := v) (U := U n) hh hh2 hJ2
    (fun j hj => node_double hh hh2 hJ2 g.dx hj) (hb' n le_rfl) hM (hM2.trans (by norm_num)) e8 hn h1 (by rw [hlast]; exact h2)
  refine ⟨y, y', ?_, ?_, i3⟩
  · have hsolve : solve (.crankNicolson thomas) (BlackScholes.pde o m) fuel s = (.ok t.newPrices, { t with solved := true }) := by
      unfold solve
      rw [Eff.bind_of_ok (hloop.trans e1), Eff.bind_of_ok (Eff.modify_apply _ _), Eff.read_apply]
    rw [calculatePrice_fresh (.crankNicolson thomas) .linear (BlackScholes.pde o m) (.ok (.num S)) hsol hsolve]
    dsimp only
    rw [g.xs, e7 hn0, g.size]
    exact i1
  · rw [price_returns hp two (by omega) hT hc hf u1, ← hhX]
    exact i2

end

end Fdm
end Verif
