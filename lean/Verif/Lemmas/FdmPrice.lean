import Verif.Lemmas.FdmBarrier

/-!
# The value of a smooth payoff against the grid
-/

namespace Verif.Fdm
open Spec Set

/-- The value of a payoff `g` plus `A` stocks and `B` bonds. -/
noncomputable def portfolio (g : ℝ → ℝ) (σ r c A B t x : ℝ) : ℝ := optionValue g σ r c t x + (A * x * Real.exp (-c * t) + B * Real.exp (-r * t))

/-- The equation of `q` with the initial and boundary values of `w`. -/
def withData (q : Problem) (w : ℝ → ℝ → ℝ) : Problem := { q with left := fun t _ => w t 0, right := w, initial := w 0 }

section
variable {q : Problem} {σ r c : ℝ} (hq : BlackScholesCoefficients q σ r c) {g : ℝ → ℝ} {R B0 B1 B2 B3 B4 : ℝ} (P : SmoothPayoff g R B0 B1 B2 B3 B4)
  (hR : 0 ≤ R) (A B : ℝ)

include hq hR in
/-- The portfolio solves the Black-Scholes equation. -/
noncomputable def portfolioSolution (L T : ℝ) : SmoothSolution (withData q (portfolio g σ r c A B)) L T (portfolio g σ r c A B) where
  ut t x := optionValue (P.gen σ r c) σ r c t x + (A * x * (Real.exp (-c * t) * -c) + B * (Real.exp (-r * t) * -r))
  utt t x := optionValue (generator σ r c (P.gen σ r c) (P.gen1 σ r c) (P.gen2 σ r c)) σ r c t x +
    (A * x * (Real.exp (-c * t) * -c * -c) + B * (Real.exp (-r * t) * -r * -r))
  ux t x := moment σ r c 1 P.g1 t x + A * Real.exp (-c * t)
  uxx t x := moment σ r c 2 P.g2 t x
  uxxx t x := moment σ r c 3 P.g3 t x
  uxxxx t x := moment σ r c 4 P.g4 t x
  hasT t ht x _ := by
    have e : ∀ a : ℝ, HasDerivAt (fun t => Real.exp (-a * t)) (Real.exp (-a * t) * -a) t := fun a => by
      simpa using ((hasDerivAt_id t).const_mul (-a)).exp
    exact ((P.hasT hR x ht.1).mono fun y hy => hy.1).add (((e c).const_mul (A * x)).add ((e r).const_mul B)).hasDerivWithinAt
  hasTT t ht x _ := by
    have e : ∀ a : ℝ, HasDerivAt (fun t => Real.exp (-a * t) * -a) (Real.exp (-a * t) * -a * -a) t := fun a => by
      simpa using (((hasDerivAt_id t).const_mul (-a)).exp).mul_const (-a)
    exact ((P.hasTT hR x ht.1).mono fun y hy => hy.1).add (((e c).const_mul (A * x)).add ((e r).const_mul B)).hasDerivWithinAt
  hasX t _ x _ := by
    have d := moment_hasDerivAt (σ := σ) (r := r) (c := c) P.h1 P.continuous.2.1 P.b0 P.b1 0 t x
    have d2 : HasDerivAt (fun x => A * x * Real.exp (-c * t) + B * Real.exp (-r * t)) (A * Real.exp (-c * t)) x := by
      simpa using (((hasDerivAt_id x).const_mul A).mul_const (Real.exp (-c * t))).add_const (B * Real.exp (-r * t))
    have e : portfolio g σ r c A B t = fun x => moment σ r c 0 g t x + (A * x * Real.exp (-c * t) + B * Real.exp (-r * t)) := by
      funext x
      rw [portfolio, optionValue_eq_moment]
    rw [e]
    exact (d.add d2).hasDerivWithinAt
  hasXX t _ x _ := ((moment_hasDerivAt (σ := σ) (r := r) (c := c) P.h2 P.continuous.2.2.1 P.b1 P.b2 1 t x).add_const _).hasDerivWithinAt
  hasXXX t _ x _ := (moment_hasDerivAt (σ := σ) (r := r) (c := c) P.h3 P.continuous.2.2.2 P.b2 P.b3 2 t x).hasDerivWithinAt
  hasXXXX t _ x _ := (moment_hasDerivAt (σ := σ) (r := r) (c := c) P.h4 P.c4 P.b3 P.b4 3 t x).hasDerivWithinAt
  equation t _ x _ := by
    rw [P.equation]
    change _ = q.D t x * _ + q.C t x * _ + q.R t x * _ - q.f t x
    rw [hq.D, hq.C, hq.R, hq.f, portfolio]
    ring
  initial _ _ := rfl
  left _ _ := rfl
  right _ _ := rfl

theorem exp_le_abs {a t T : ℝ} (h0 : 0 ≤ t) (hT : t ≤ T) : Real.exp (-a * t) ≤ Real.exp (|a| * T) :=
  Real.exp_le_exp.mpr ((mul_le_mul_of_nonneg_right (neg_le_abs a) h0).trans (mul_le_mul_of_nonneg_left hT (abs_nonneg a)))

/-- Bounds for the derivatives of the portfolio. -/
theorem portfolio_bounded (hr : 0 ≤ r) (L T : ℝ) : Bounded (portfolioSolution hq P hR A B L T) (σ ^ 2 / 2 * L ^ 2) (|r - c| * L)
    (timeBound σ r c R B0 B1 B2 B3 B4 + |A| * L * c ^ 2 * Real.exp (|c| * T) + |B| * r ^ 2)
    (B3 * Real.exp ((3 * |r - c| + 3 * σ ^ 2) * T)) (B4 * Real.exp ((4 * |r - c| + 6 * σ ^ 2) * T)) where
  D t _ x hx := by
    change |q.D t x| ≤ _
    rw [hq.D, abs_of_nonneg (by positivity)]
    have : x ^ 2 ≤ L ^ 2 := pow_le_pow_left₀ hx.1 hx.2 2
    nlinarith [mul_le_mul_of_nonneg_left this (sq_nonneg σ)]
  C t _ x hx := by
    change |q.C t x| ≤ _
    rw [hq.C, abs_mul, abs_of_nonneg hx.1]
    exact mul_le_mul_of_nonneg_left hx.2 (abs_nonneg _)
  tt t ht x hx := by
    change |_ + (A * x * (Real.exp (-c * t) * -c * -c) + B * (Real.exp (-r * t) * -r * -r))| ≤ _
    have a := abs_optionValue_le (σ := σ) (c := c) (P.gen_gen_le (σ := σ) (c := c) hR hr) hr ht.1 x
    have b : |A * x * (Real.exp (-c * t) * -c * -c)| ≤ |A| * L * c ^ 2 * Real.exp (|c| * T) := by
      rw [show A * x * (Real.exp (-c * t) * -c * -c) = A * (x * c ^ 2 * Real.exp (-c * t)) by ring, abs_mul,
        abs_of_nonneg (by have := hx.1; positivity : 0 ≤ x * c ^ 2 * Real.exp (-c * t)),
        show |A| * L * c ^ 2 * Real.exp (|c| * T) = |A| * (L * c ^ 2 * Real.exp (|c| * T)) by ring]
      refine mul_le_mul_of_nonneg_left ?_ (abs_nonneg A)
      exact mul_le_mul (mul_le_mul_of_nonneg_right hx.2 (sq_nonneg c)) (exp_le_abs ht.1 ht.2) (Real.exp_pos _).le
        (mul_nonneg (hx.1.trans hx.2) (sq_nonneg c))
    have d : |B * (Real.exp (-r * t) * -r * -r)| ≤ |B| * r ^ 2 := by
      rw [show B * (Real.exp (-r * t) * -r * -r) = B * (r ^ 2 * Real.exp (-r * t)) by ring, abs_mul, abs_of_nonneg (by positivity : 0 ≤ r ^ 2 * Real.exp (-r * t))]
      refine mul_le_mul_of_nonneg_left (mul_le_of_le_one_right (sq_nonneg r) (Real.exp_le_one_iff.mpr ?_)) (abs_nonneg B)
      have := mul_nonneg hr ht.1
      linarith
    have s1 := abs_add_le (optionValue (generator σ r c (P.gen σ r c) (P.gen1 σ r c) (P.gen2 σ r c)) σ r c t x)
      (A * x * (Real.exp (-c * t) * -c * -c) + B * (Real.exp (-r * t) * -r * -r))
    have s2 := abs_add_le (A * x * (Real.exp (-c * t) * -c * -c)) (B * (Real.exp (-r * t) * -r * -r))
    linarith
  xxx t ht x _ := by
    have := abs_moment_le (σ := σ) (c := c) P.b3 hr 3 ht.1 ht.2 x
    refine this.trans (le_of_eq ?_)
    congr 3
    push_cast
    ring
  xxxx t ht x _ := by
    have := abs_moment_le (σ := σ) (c := c) P.b4 hr 4 ht.1 ht.2 x
    refine this.trans (le_of_eq ?_)
    congr 3
    push_cast
    ring

theorem portfolio_uxx (hr : 0 ≤ r) (L T : ℝ) {t : ℝ} (h0 : 0 ≤ t) (hT : t ≤ T) (x : ℝ) :
    |(portfolioSolution hq P hR A B L T).uxx t x| ≤ B2 * Real.exp ((2 * |r - c| + σ ^ 2) * T) := by
  have := abs_moment_le (σ := σ) (c := c) P.b2 hr 2 h0 hT x
  refine this.trans (le_of_eq ?_)
  congr 3
  push_cast
  ring

end

/-- The error of the difference equation with weight `θ` for the new level. -/
theorem theta_residual {q : Problem} {xDom tDom : ℝ} {u : ℝ → ℝ → ℝ} {S : SmoothSolution q xDom tDom u} {Dm Cm M2 M3 M4 h k t θ : ℝ} {j : ℕ}
    (hB : Bounded S Dm Cm M2 M3 M4) (hh : 0 < h) (hk : 0 < k) (h0 : 0 ≤ t) (hT : t + k ≤ tDom) (h1 : 1 ≤ j) (h2 : (j + 1) * h ≤ xDom)
    (hθ0 : 0 ≤ θ) (hθ1 : θ ≤ 1) :
    |(u (t + k) (j * h) - u t (j * h)) / k - ((1 - θ) * central q h t (fun j => u t (j * h)) j + θ * central q h (t + k) (fun j => u (t + k) (j * h)) j)| ≤
      truncation h k Dm Cm M2 M3 M4 := by
  have m1 : t ∈ Icc 0 tDom := ⟨h0, by linarith⟩
  have m2 : t + k ∈ Icc 0 tDom := ⟨by linarith, hT⟩
  have mx : (j : ℝ) * h ∈ Icc 0 xDom := ⟨by positivity, by linarith⟩
  have c1 := consistent S hh m1 h1 h2 (hB.D _ m1 _ mx) (hB.C _ m1 _ mx) (hB.xxx _ m1) (hB.xxxx _ m1)
  have c2 := consistent S hh m2 h1 h2 (hB.D _ m2 _ mx) (hB.C _ m2 _ mx) (hB.xxx _ m2) (hB.xxxx _ m2)
  have d1 := Taylor.forward (v := fun t => u t (j * h)) (t := t) (k := k) h0 hT hk (fun t ht => S.hasT t ht _ mx) (fun t ht => S.hasTT t ht _ mx)
    (fun t ht => hB.tt t ht _ mx)
  have d2 := Taylor.backward (v := fun t => u t (j * h)) (t := t + k) (k := k) (by linarith) hT hk (fun t ht => S.hasT t ht _ mx)
    (fun t ht => S.hasTT t ht _ mx) (fun t ht => hB.tt t ht _ mx)
  rw [add_sub_cancel_right] at d2
  set Q := (u (t + k) (j * h) - u t (j * h)) / k
  set X1 := central q h t (fun j => u t (j * h)) j
  set X2 := central q h (t + k) (fun j => u (t + k) (j * h)) j
  have e : Q - ((1 - θ) * X1 + θ * X2) = (1 - θ) * ((Q - S.ut t (j * h)) - (X1 - S.ut t (j * h))) +
      θ * ((Q - S.ut (t + k) (j * h)) - (X2 - S.ut (t + k) (j * h))) := by ring
  rw [e, truncation]
  have a1 := (abs_sub (Q - S.ut t (j * h)) (X1 - S.ut t (j * h))).trans (add_le_add d1 c1)
  have a2 := (abs_sub (Q - S.ut (t + k) (j * h)) (X2 - S.ut (t + k) (j * h))).trans (add_le_add d2 c2)
  refine (abs_add_le _ _).trans ?_
  rw [abs_mul, abs_mul, abs_of_nonneg hθ0, abs_of_nonneg (by linarith : 0 ≤ 1 - θ)]
  have b1 := mul_le_mul_of_nonneg_left a1 (by linarith : 0 ≤ 1 - θ)
  have b2 := mul_le_mul_of_nonneg_left a2 hθ0
  refine (add_le_add b1 b2).trans (le_of_eq ?_)
  ring

/-- The errors of all levels of a scheme with weight `θ`, times a sign `a`; the boundary values are wrong by `BL` and `BR`. -/
theorem theta_side {q : Problem} {σ r c : ℝ} (hq : BlackScholesCoefficients q σ r c) (hr : 0 ≤ r) {xDom tDom : ℝ} {w : ℝ → ℝ → ℝ}
    {S : SmoothSolution (withData q w) xDom tDom w} {Dm Cm M2 M3 M4 θ ε BL BR : ℝ} (hB : Bounded S Dm Cm M2 M3 M4) {J N : ℕ} (hJ : 2 ≤ J) (hN : 2 ≤ N)
    (hX : 0 < xDom) (hT : 0 < tDom) (hd : DiffusionDominates q J (xDom / (J - 1))) (hθ0 : 0 ≤ θ) (hθ1 : θ ≤ 1)
    (hw : ∀ t j, 1 ≤ j → j + 1 < J →
      0 ≤ 1 - (1 - θ) * (tDom / (N - 1)) * (2 * q.D t (j * (xDom / (J - 1))) / (xDom / (J - 1)) ^ 2 - q.R t (j * (xDom / (J - 1)))))
    (hκ : (σ ^ 2 + 2 * |r - c|) * (tDom / (N - 1)) < 1) (hε : 0 ≤ ε) (hBL : 0 ≤ BL) (hBR : 0 ≤ BR) {U V : ℕ → ℕ → ℝ} {a : ℝ} (ha : |a| ≤ 1)
    (h0 : ∀ j < J, a * (U 0 j - w 0 (j * (xDom / (J - 1)))) ≤ ε)
    (hV : ∀ n < N - 1, (∀ j, 1 ≤ j → j + 1 < J → V n j = U n j) ∧ a * (V n 0 - w (n * (tDom / (N - 1))) 0) ≤ ε + BL ∧
      a * (V n (J - 1) - w (n * (tDom / (N - 1))) xDom) ≤ ε + BR)
    (hs : ∀ n < N - 1, (∀ j, 1 ≤ j → j + 1 < J → (U (n + 1) j - U n j) / (tDom / (N - 1)) =
        (1 - θ) * central q (xDom / (J - 1)) (n * (tDom / (N - 1))) (V n) j +
        θ * central q (xDom / (J - 1)) (n * (tDom / (N - 1)) + tDom / (N - 1)) (U (n + 1)) j) ∧
      a * (U (n + 1) 0 - w (n * (tDom / (N - 1)) + tDom / (N - 1)) 0) ≤ ε + BL ∧
      a * (U (n + 1) (J - 1) - w (n * (tDom / (N - 1)) + tDom / (N - 1)) xDom) ≤ ε + BR) :
    ∀ n ≤ N - 1, ∀ j < J, a * (U n j - w (n * (tDom / (N - 1))) (j * (xDom / (J - 1)))) ≤
      barrier (σ ^ 2 + 2 * |r - c|) (tDom / (N - 1)) ε (truncation (xDom / (J - 1)) (tDom / (N - 1)) Dm Cm M2 M3 M4) BL BR J n j := by
  have hJ1 : (0 : ℝ) < J - 1 := by
    have : (2 : ℝ) ≤ J := by exact_mod_cast hJ
    linarith
  have hN1 : (0 : ℝ) < N - 1 := by
    have : (2 : ℝ) ≤ N := by exact_mod_cast hN
    linarith
  have hk : 0 < tDom / (N - 1) := div_pos hT hN1
  have hh : 0 < xDom / (J - 1) := div_pos hX hJ1
  have hlast : ((J - 1 : ℕ) : ℝ) * (xDom / (J - 1)) = xDom := last_node hJ
  have hJc : ((J - 1 : ℕ) : ℝ) = (J : ℝ) - 1 := by rw [Nat.cast_sub (by omega), Nat.cast_one]
  have hnode : ∀ j : ℕ, j < J → (j : ℝ) * (xDom / (J - 1)) ∈ Icc 0 xDom := fun j hj => time_le hJ hX (by omega)
  have hτ : 0 ≤ truncation (xDom / (J - 1)) (tDom / (N - 1)) Dm Cm M2 M3 M4 := truncation_nonneg hB hX hT hk.le
  set τ := truncation (xDom / (J - 1)) (tDom / (N - 1)) Dm Cm M2 M3 M4 with hτd
  set κ := σ ^ 2 + 2 * |r - c| with hκd
  set k := tDom / ((N : ℝ) - 1) with hkd
  set h := xDom / ((J : ℝ) - 1) with hhd
  have hκ0 : 0 ≤ κ := by positivity
  have hden : 0 < 1 - κ * k := by linarith
  have hGge : 1 ≤ 1 / (1 - κ * k) := by rw [le_div_iff₀ hden]; nlinarith [mul_nonneg hκ0 hk.le]
  have hG : ∀ n, 1 ≤ (1 / (1 - κ * k)) ^ n := fun n => one_le_pow₀ hGge
  have hle : ∀ n j, ε ≤ barrier κ k ε τ BL BR J n j := fun n j => by
    unfold barrier
    have := hG n
    have a : 0 ≤ n * k * τ := by positivity
    have b : 0 ≤ (1 / (1 - κ * k)) ^ n * (BL * (1 / ((j : ℝ) + 1)) + BR * ((j : ℝ) / ((J : ℝ) - 1)) ^ 2) := by positivity
    linarith
  have hleft : ∀ n, ε + BL ≤ barrier κ k ε τ BL BR J n 0 := fun n => by
    unfold barrier
    have a : 0 ≤ n * k * τ := by positivity
    have b := mul_le_mul_of_nonneg_right (hG n) hBL
    norm_num
    norm_num at b
    linarith
  have hright : ∀ n, ε + BR ≤ barrier κ k ε τ BL BR J n (J - 1) := fun n => by
    unfold barrier
    have a : 0 ≤ n * k * τ := by positivity
    have b := mul_le_mul_of_nonneg_right (hG n) hBR
    have d : 0 ≤ (1 / (1 - κ * k)) ^ n * (BL * (1 / (((J - 1 : ℕ) : ℝ) + 1))) := by have := hG n; positivity
    rw [mul_add, hJc, div_self hJ1.ne', one_pow, mul_one]
    rw [hJc] at d
    linarith
  intro n
  induction n with
  | zero =>
    intro _ j hj
    rw [Nat.cast_zero, zero_mul]
    exact (h0 j hj).trans (hle 0 j)
  | succ n ih =>
    intro hn j hj
    obtain ⟨v1, v2, v3⟩ := hV n (by omega)
    obtain ⟨s1, s2, s3⟩ := hs n (by omega)
    have ht := time_le hN hT hn
    have ht' : (n : ℝ) * k + k = ((n + 1 : ℕ) : ℝ) * k := by push_cast; ring
    rw [← hkd, ← ht'] at ht
    rw [← ht']
    have tn : 0 ≤ (n : ℝ) * k := by positivity
    refine step_side (old := V n) (wold := fun j => w (n * k) (j * h)) (wnew := fun j => w (n * k + k) (j * h)) (t := n * k) hh hk hθ0 hθ1 hd
      (fun j h1 h2 => hw _ j h1 h2) ha ?_ ?_ ?_ ?_ (fun j h1 h2 => ?_) (fun j h1 h2 => barrier_step hq hh hk hr hθ0 hθ1 hκ hε hτ hBL hBR h1) j hj
    · intro j hj
      rcases Nat.eq_zero_or_pos j with rfl | h1
      · rw [Nat.cast_zero, zero_mul]
        exact v2.trans (hleft n)
      rcases (show j = J - 1 ∨ j + 1 < J by omega) with rfl | h2
      · rw [hlast]
        exact v3.trans (hright n)
      · rw [v1 j h1 h2]
        exact ih (by omega) j hj
    · rw [Nat.cast_zero, zero_mul]
      exact s2.trans (hleft (n + 1))
    · rw [hlast]
      exact s3.trans (hright (n + 1))
    · intro j h1 h2
      rw [v1 j h1 h2]
      exact s1 j h1 h2
    · have := theta_residual (j := j) hB hh hk tn ht.2 h1 (by have := (hnode (j + 1) h2).2; push_cast at this; exact this) hθ0 hθ1
      exact this

/-- The errors of all levels of a scheme with weight `θ`; the boundary values are wrong by `BL` and `BR`. -/
theorem theta_error {q : Problem} {σ r c : ℝ} (hq : BlackScholesCoefficients q σ r c) (hr : 0 ≤ r) {xDom tDom : ℝ} {w : ℝ → ℝ → ℝ}
    {S : SmoothSolution (withData q w) xDom tDom w} {Dm Cm M2 M3 M4 θ ε BL BR : ℝ} (hB : Bounded S Dm Cm M2 M3 M4) {J N : ℕ} (hJ : 2 ≤ J) (hN : 2 ≤ N)
    (hX : 0 < xDom) (hT : 0 < tDom) (hd : DiffusionDominates q J (xDom / (J - 1))) (hθ0 : 0 ≤ θ) (hθ1 : θ ≤ 1)
    (hw : ∀ t j, 1 ≤ j → j + 1 < J →
      0 ≤ 1 - (1 - θ) * (tDom / (N - 1)) * (2 * q.D t (j * (xDom / (J - 1))) / (xDom / (J - 1)) ^ 2 - q.R t (j * (xDom / (J - 1)))))
    (hκ : (σ ^ 2 + 2 * |r - c|) * (tDom / (N - 1)) < 1) (hε : 0 ≤ ε) (hBL : 0 ≤ BL) (hBR : 0 ≤ BR) {U V : ℕ → ℕ → ℝ}
    (h0 : ∀ j < J, |U 0 j - w 0 (j * (xDom / (J - 1)))| ≤ ε)
    (hV : ∀ n < N - 1, (∀ j, 1 ≤ j → j + 1 < J → V n j = U n j) ∧ |V n 0 - w (n * (tDom / (N - 1))) 0| ≤ ε + BL ∧
      |V n (J - 1) - w (n * (tDom / (N - 1))) xDom| ≤ ε + BR)
    (hs : ∀ n < N - 1, (∀ j, 1 ≤ j → j + 1 < J → (U (n + 1) j - U n j) / (tDom / (N - 1)) =
        (1 - θ) * central q (xDom / (J - 1)) (n * (tDom / (N - 1))) (V n) j +
        θ * central q (xDom / (J - 1)) (n * (tDom / (N - 1)) + tDom / (N - 1)) (U (n + 1)) j) ∧
      |U (n + 1) 0 - w (n * (tDom / (N - 1)) + tDom / (N - 1)) 0| ≤ ε + BL ∧
      |U (n + 1) (J - 1) - w (n * (tDom / (N - 1)) + tDom / (N - 1)) xDom| ≤ ε + BR) :
    ∀ n ≤ N - 1, ∀ j < J, |U n j - w (n * (tDom / (N - 1))) (j * (xDom / (J - 1)))| ≤
      barrier (σ ^ 2 + 2 * |r - c|) (tDom / (N - 1)) ε (truncation (xDom / (J - 1)) (tDom / (N - 1)) Dm Cm M2 M3 M4) BL BR J n j := by
  have up := theta_side hq hr hB hJ hN hX hT hd hθ0 hθ1 hw hκ hε hBL hBR (U := U) (V := V) (a := 1) (by simp)
    (fun j hj => by rw [one_mul]; exact (le_abs_self _).trans (h0 j hj))
    (fun n hn => by rw [one_mul, one_mul]; exact ⟨(hV n hn).1, (le_abs_self _).trans (hV n hn).2.1, (le_abs_self _).trans (hV n hn).2.2⟩)
    (fun n hn => by rw [one_mul, one_mul]; exact ⟨(hs n hn).1, (le_abs_self _).trans (hs n hn).2.1, (le_abs_self _).trans (hs n hn).2.2⟩)
  have lo := theta_side hq hr hB hJ hN hX hT hd hθ0 hθ1 hw hκ hε hBL hBR (U := U) (V := V) (a := -1) (by simp)
    (fun j hj => by rw [neg_one_mul]; exact (neg_le_abs _).trans (h0 j hj))
    (fun n hn => by rw [neg_one_mul, neg_one_mul]; exact ⟨(hV n hn).1, (neg_le_abs _).trans (hV n hn).2.1, (neg_le_abs _).trans (hV n hn).2.2⟩)
    (fun n hn => by rw [neg_one_mul, neg_one_mul]; exact ⟨(hs n hn).1, (neg_le_abs _).trans (hs n hn).2.1, (neg_le_abs _).trans (hs n hn).2.2⟩)
  intro n hn j hj
  have u := up n hn j hj
  have l := lo n hn j hj
  rw [one_mul] at u
  rw [neg_one_mul] at l
  exact abs_le.mpr ⟨by linarith, u⟩

/-- The barrier at the end, near `S`. -/
theorem barrier_le {κ ε τ BL BR S xDom tDom : ℝ} {J N j : ℕ} (hJ : 2 ≤ J) (hN : 2 ≤ N) (hX : 0 < xDom) (hT : 0 < tDom) (hκ0 : 0 ≤ κ)
    (hκ : κ * (tDom / (N - 1)) ≤ 1 / 2) (hBL : 0 ≤ BL) (hBR : 0 ≤ BR) (hS : 0 < S) (hlo : S / 2 ≤ (j + 1) * (xDom / (J - 1)))
    (hhi : j * (xDom / (J - 1)) ≤ 2 * S) :
    barrier κ (tDom / (N - 1)) ε τ BL BR J (N - 1) j ≤
      ε + tDom * τ + Real.exp (2 * κ * tDom) * (BL * (2 * (xDom / (J - 1)) / S) + BR * (2 * S / xDom) ^ 2) := by
  have hJ1 : (0 : ℝ) < J - 1 := by
    have : (2 : ℝ) ≤ J := by exact_mod_cast hJ
    linarith
  have hN1 : (0 : ℝ) < N - 1 := by
    have : (2 : ℝ) ≤ N := by exact_mod_cast hN
    linarith
  have hk : 0 < tDom / (N - 1) := div_pos hT hN1
  have hh : 0 < xDom / (J - 1) := div_pos hX hJ1
  unfold barrier
  rw [last_time hN]
  have hden : 0 < 1 - κ * (tDom / (N - 1)) := by linarith
  have g : (1 / (1 - κ * (tDom / (N - 1)))) ^ (N - 1) ≤ Real.exp (2 * κ * tDom) := by
    have : 1 / (1 - κ * (tDom / (N - 1))) ≤ Real.exp (2 * κ * (tDom / (N - 1))) := by
      have e := Real.add_one_le_exp (2 * κ * (tDom / (N - 1)))
      refine le_trans ?_ e
      rw [div_le_iff₀ hden]
      have y0 : 0 ≤ κ * (tDom / (N - 1)) := by positivity
      rw [mul_assoc 2 κ]
      generalize κ * (tDom / (N - 1)) = y at *
      nlinarith
    calc _ ≤ Real.exp (2 * κ * (tDom / (N - 1))) ^ (N - 1) := pow_le_pow_left₀ (by positivity) this _
      _ = Real.exp (2 * κ * tDom) := by
        rw [← Real.exp_nat_mul]
        congr 1
        rw [show ((N - 1 : ℕ) : ℝ) * (2 * κ * (tDom / (N - 1))) = 2 * κ * (((N - 1 : ℕ) : ℝ) * (tDom / (N - 1))) by ring, last_time hN]
  have l1 : 1 / ((j : ℝ) + 1) ≤ 2 * (xDom / (J - 1)) / S := by
    rw [div_le_div_iff₀ (by positivity) hS]
    linarith
  have l2 : (j : ℝ) / (J - 1) ≤ 2 * S / xDom := by
    rw [le_div_iff₀ hX]
    calc (j : ℝ) / (J - 1) * xDom = j * (xDom / (J - 1)) := by ring
      _ ≤ _ := hhi
  have l3 : ((j : ℝ) / (J - 1)) ^ 2 ≤ (2 * S / xDom) ^ 2 := pow_le_pow_left₀ (by positivity) l2 2
  have m := add_le_add (mul_le_mul_of_nonneg_left l1 hBL) (mul_le_mul_of_nonneg_left l3 hBR)
  have := mul_le_mul g m (by positivity) (Real.exp_pos _).le
  linarith

end Verif.Fdm
