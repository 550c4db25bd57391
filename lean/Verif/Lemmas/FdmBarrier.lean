import Verif.Props.FdmConvergence
import Verif.Lemmas.Smoothing

/-!
# Errors of the three schemes for the Black-Scholes equation, with wrong boundary values
-/

namespace Verif.Fdm
open Spec Set

/-- The difference operator without the source. -/
noncomputable def hom (q : Problem) (h t : ℝ) (u : ℕ → ℝ) (j : ℕ) : ℝ :=
  (q.D t (j * h) / h ^ 2 - q.C t (j * h) / (2 * h)) * (u (j - 1) - u j) +
    (q.D t (j * h) / h ^ 2 + q.C t (j * h) / (2 * h)) * (u (j + 1) - u j) + q.R t (j * h) * u j

theorem central_hom (q : Problem) (h t : ℝ) (u w : ℕ → ℝ) (j : ℕ) : central q h t u j - central q h t w j = hom q h t (fun j => u j - w j) j := by
  rw [central_eq, central_eq, hom]; ring

theorem hom_add (q : Problem) (h t : ℝ) (u w : ℕ → ℝ) (j : ℕ) : hom q h t (fun j => u j + w j) j = hom q h t u j + hom q h t w j := by
  unfold hom; ring

theorem hom_sub (q : Problem) (h t : ℝ) (u w : ℕ → ℝ) (j : ℕ) : hom q h t (fun j => u j - w j) j = hom q h t u j - hom q h t w j := by
  unfold hom; ring

theorem hom_mul (q : Problem) (h t a : ℝ) (u : ℕ → ℝ) (j : ℕ) : hom q h t (fun j => a * u j) j = a * hom q h t u j := by
  unfold hom; ring

/-- A grid function that satisfies the inequality of the scheme with weight `θ` for the new level, and is not negative on the old level
and at the boundary, is not negative. -/
theorem step_nonneg {q : Problem} {J : ℕ} {h k t θ : ℝ} {old new : ℕ → ℝ} (hh : 0 < h) (hk : 0 < k) (hθ0 : 0 ≤ θ) (hθ1 : θ ≤ 1)
    (hq : DiffusionDominates q J h) (hw : ∀ j, 1 ≤ j → j + 1 < J → 0 ≤ 1 - (1 - θ) * k * (2 * q.D t (j * h) / h ^ 2 - q.R t (j * h)))
    (ho : ∀ j < J, 0 ≤ old j) (h0 : 0 ≤ new 0) (hJ : 0 ≤ new (J - 1))
    (hs : ∀ j, 1 ≤ j → j + 1 < J → 0 ≤ new j - old j - k * ((1 - θ) * hom q h t old j + θ * hom q h (t + k) new j)) :
    ∀ j < J, 0 ≤ new j := by
  intro j hj
  have hne : (Finset.range J).Nonempty := ⟨j, by simpa using hj⟩
  obtain ⟨i, hi, hmin⟩ := Finset.exists_min_image (Finset.range J) new hne
  refine le_trans ?_ (hmin j (by simpa using hj))
  have hi : i < J := by simpa using hi
  rcases Nat.eq_zero_or_pos i with rfl | h1
  · exact h0
  rcases (show i = J - 1 ∨ i + 1 < J by omega) with rfl | h2
  · exact hJ
  have e := hs i h1 h2
  obtain ⟨w1, w2⟩ := weights_nonneg hh hq (t + k) h1 h2
  obtain ⟨v1, v2⟩ := weights_nonneg hh hq t h1 h2
  have hR := (hq (t + k) i h1 h2).2
  have d1 := mul_nonneg w1 (sub_nonneg.mpr (hmin (i - 1) (by simp; omega)))
  have d2 := mul_nonneg w2 (sub_nonneg.mpr (hmin (i + 1) (by simp; omega)))
  have o0 := ho (i - 1) (by omega)
  have o1 := ho i hi
  have o2 := ho (i + 1) h2
  have w := hw i h1 h2
  have hk1 : 0 ≤ (1 - θ) * k := mul_nonneg (by linarith) hk.le
  have old_nonneg : 0 ≤ old i + k * ((1 - θ) * hom q h t old i) := by
    have e : old i + k * ((1 - θ) * hom q h t old i) = (1 - (1 - θ) * k * (2 * q.D t (i * h) / h ^ 2 - q.R t (i * h))) * old i +
        (1 - θ) * k * ((q.D t (i * h) / h ^ 2 - q.C t (i * h) / (2 * h)) * old (i - 1)) +
        (1 - θ) * k * ((q.D t (i * h) / h ^ 2 + q.C t (i * h) / (2 * h)) * old (i + 1)) := by
      unfold hom; ring
    rw [e]
    have := mul_nonneg w o1
    have := mul_nonneg hk1 (mul_nonneg v1 o0)
    have := mul_nonneg hk1 (mul_nonneg v2 o2)
    linarith
  by_contra hc
  push Not at hc
  have hRn : 0 ≤ q.R (t + k) (i * h) * new i := mul_nonneg_of_nonpos_of_nonpos hR hc.le
  have hom_nonneg : 0 ≤ hom q h (t + k) new i := by
    unfold hom
    linarith
  have := mul_nonneg hk.le (mul_nonneg hθ0 hom_nonneg)
  have e2 : k * ((1 - θ) * hom q h t old i + θ * hom q h (t + k) new i) = k * ((1 - θ) * hom q h t old i) + k * (θ * hom q h (t + k) new i) := by ring
  linarith

/-- One step of the scheme with weight `θ`: a barrier `Φ` for the error times a sign `a`. -/
theorem step_side {q : Problem} {J : ℕ} {h k t θ τ : ℝ} {old new wold wnew Φo Φn : ℕ → ℝ} (hh : 0 < h) (hk : 0 < k) (hθ0 : 0 ≤ θ) (hθ1 : θ ≤ 1)
    (hq : DiffusionDominates q J h) (hw : ∀ j, 1 ≤ j → j + 1 < J → 0 ≤ 1 - (1 - θ) * k * (2 * q.D t (j * h) / h ^ 2 - q.R t (j * h)))
    {a : ℝ} (ha : |a| ≤ 1)
    (ho : ∀ j < J, a * (old j - wold j) ≤ Φo j) (h0 : a * (new 0 - wnew 0) ≤ Φn 0) (hJ : a * (new (J - 1) - wnew (J - 1)) ≤ Φn (J - 1))
    (hs : ∀ j, 1 ≤ j → j + 1 < J → (new j - old j) / k = (1 - θ) * central q h t old j + θ * central q h (t + k) new j)
    (hc : ∀ j, 1 ≤ j → j + 1 < J → |(wnew j - wold j) / k - ((1 - θ) * central q h t wold j + θ * central q h (t + k) wnew j)| ≤ τ)
    (hb : ∀ j, 1 ≤ j → j + 1 < J → k * ((1 - θ) * hom q h t Φo j + θ * hom q h (t + k) Φn j + τ) ≤ Φn j - Φo j) :
    ∀ j < J, a * (new j - wnew j) ≤ Φn j := by
  have eq : ∀ j, 1 ≤ j → j + 1 < J → |(new j - wnew j) - (old j - wold j) - k * ((1 - θ) * hom q h t (fun j => old j - wold j) j +
      θ * hom q h (t + k) (fun j => new j - wnew j) j)| ≤ k * τ := by
    intro j h1 h2
    have e := hs j h1 h2
    have c := mul_le_mul_of_nonneg_left (hc j h1 h2) hk.le
    rw [← abs_of_pos hk, ← abs_mul, abs_of_pos hk] at c
    rw [← central_hom, ← central_hom]
    rw [div_eq_iff hk.ne'] at e
    rw [← abs_neg]
    refine le_trans (le_of_eq ?_) c
    congr 1
    have : k * ((wnew j - wold j) / k) = wnew j - wold j := by field_simp
    linear_combination -e - this
  have up := step_nonneg (old := fun j => Φo j - a * (old j - wold j)) (new := fun j => Φn j - a * (new j - wnew j)) hh hk hθ0 hθ1 hq hw
    (fun j hj => by linarith [ho j hj]) (by linarith) (by linarith) (fun j h1 h2 => by
      have e := eq j h1 h2
      have b := hb j h1 h2
      rw [hom_sub q h t Φo (fun j => a * (old j - wold j)) j, hom_sub q h (t + k) Φn (fun j => a * (new j - wnew j)) j,
        hom_mul q h t a (fun j => old j - wold j) j, hom_mul q h (t + k) a (fun j => new j - wnew j) j]
      generalize (new j - wnew j) = x1 at *
      generalize (old j - wold j) = x2 at *
      generalize hom q h t (fun j => old j - wold j) j = y1 at *
      generalize hom q h (t + k) (fun j => new j - wnew j) j = y2 at *
      have m : a * (x1 - x2 - k * ((1 - θ) * y1 + θ * y2)) ≤ k * τ := by
        refine (le_abs_self _).trans ?_
        rw [abs_mul]
        have := mul_le_mul ha e (abs_nonneg _) zero_le_one
        linarith
      linarith)
  exact fun j hj => by linarith [up j hj]

/-- The coefficients of the Black-Scholes equation. -/
structure BlackScholesCoefficients (q : Problem) (σ r c : ℝ) : Prop where
  D : ∀ t x, q.D t x = 1 / 2 * σ ^ 2 * x ^ 2
  C : ∀ t x, q.C t x = (r - c) * x
  R : ∀ t x, q.R t x = -r
  f : ∀ t x, q.f t x = 0

section
variable {q : Problem} {σ r c : ℝ} (hq : BlackScholesCoefficients q σ r c)
include hq

theorem hom_blackScholes {h : ℝ} (hh : 0 < h) (t : ℝ) (u : ℕ → ℝ) (j : ℕ) : hom q h t u j =
    σ ^ 2 / 2 * (j : ℝ) ^ 2 * (u (j + 1) - 2 * u j + u (j - 1)) + (r - c) * j * (u (j + 1) - u (j - 1)) / 2 - r * u j := by
  unfold hom
  rw [hq.D, hq.C, hq.R]
  field_simp
  ring

/-- Constants. -/
theorem hom_const {h : ℝ} (hh : 0 < h) (hr : 0 ≤ r) (t : ℝ) {a : ℝ} (ha : 0 ≤ a) (j : ℕ) : hom q h t (fun _ => a) j ≤ 0 := by
  rw [hom_blackScholes hq hh]
  have := mul_nonneg hr ha
  nlinarith

/-- The barrier of the left boundary. -/
theorem hom_left {h : ℝ} (hh : 0 < h) (hr : 0 ≤ r) (t : ℝ) {j : ℕ} (hj : 1 ≤ j) :
    hom q h t (fun j => 1 / ((j : ℝ) + 1)) j ≤ (σ ^ 2 + 2 * |r - c|) * (1 / ((j : ℝ) + 1)) := by
  rw [hom_blackScholes hq hh]
  obtain ⟨i, rfl⟩ : ∃ i, j = i + 1 := ⟨j - 1, by omega⟩
  rw [Nat.add_sub_cancel]
  push_cast
  have hi : (0 : ℝ) ≤ i := Nat.cast_nonneg i
  generalize (i : ℝ) = y at hi
  have e1 : σ ^ 2 / 2 * (y + 1) ^ 2 * (1 / (y + 1 + 1 + 1) - 2 * (1 / (y + 1 + 1)) + 1 / (y + 1)) = σ ^ 2 * ((y + 1) / ((y + 2) * (y + 3))) := by
    field_simp; ring
  have e2 : (r - c) * (y + 1) * (1 / (y + 1 + 1 + 1) - 1 / (y + 1)) / 2 = -(r - c) * (1 / (y + 3)) := by
    field_simp; ring
  rw [e1, e2, show y + 1 + 1 = y + 2 by ring]
  have l1 : (y + 1) / ((y + 2) * (y + 3)) ≤ 1 / (y + 2) := by
    rw [div_le_div_iff₀ (by positivity) (by positivity)]; nlinarith
  have l2 : 1 / (y + 3) ≤ 1 / (y + 2) := one_div_le_one_div_of_le (by positivity) (by linarith)
  have p : 0 ≤ 1 / (y + 2) := by positivity
  have m1 := mul_le_mul_of_nonneg_left l1 (sq_nonneg σ)
  have m2 : -(r - c) * (1 / (y + 3)) ≤ |r - c| * (1 / (y + 2)) :=
    mul_le_mul (neg_le_abs _) l2 (by positivity) (abs_nonneg _)
  have m3 := mul_nonneg (abs_nonneg (r - c)) p
  have m4 := mul_nonneg hr p
  linarith

/-- The barrier of the right boundary. -/
theorem hom_right {h : ℝ} (hh : 0 < h) (hr : 0 ≤ r) (t a : ℝ) {j : ℕ} (hj : 1 ≤ j) :
    hom q h t (fun j => ((j : ℝ) / a) ^ 2) j ≤ (σ ^ 2 + 2 * |r - c|) * ((j : ℝ) / a) ^ 2 := by
  rw [hom_blackScholes hq hh]
  obtain ⟨i, rfl⟩ : ∃ i, j = i + 1 := ⟨j - 1, by omega⟩
  rw [Nat.add_sub_cancel]
  push_cast
  generalize (i : ℝ) = y
  have e : σ ^ 2 / 2 * (y + 1) ^ 2 * (((y + 1 + 1) / a) ^ 2 - 2 * ((y + 1) / a) ^ 2 + (y / a) ^ 2) + (r - c) * (y + 1) * (((y + 1 + 1) / a) ^ 2 - (y / a) ^ 2) / 2 -
      r * ((y + 1) / a) ^ 2 = (σ ^ 2 + 2 * (r - c) - r) * ((y + 1) / a) ^ 2 := by ring
  rw [e]
  refine mul_le_mul_of_nonneg_right ?_ (sq_nonneg _)
  linarith [le_abs_self (r - c)]

end

/-- The barrier of the error after `n` steps of size `k`: errors of the initial values and of the difference equation, and wrong boundary values. -/
noncomputable def barrier (κ k ε τ BL BR : ℝ) (J n j : ℕ) : ℝ :=
  ε + n * k * τ + (1 / (1 - κ * k)) ^ n * (BL * (1 / ((j : ℝ) + 1)) + BR * ((j : ℝ) / ((J : ℝ) - 1)) ^ 2)

section
variable {q : Problem} {σ r c : ℝ} (hq : BlackScholesCoefficients q σ r c)
include hq

/-- The barrier satisfies the inequality of the schemes. -/
theorem barrier_step {h k t θ ε τ BL BR : ℝ} {J n j : ℕ} (hh : 0 < h) (hk : 0 < k) (hr : 0 ≤ r) (hθ0 : 0 ≤ θ) (hθ1 : θ ≤ 1)
    (hκ : (σ ^ 2 + 2 * |r - c|) * k < 1) (hε : 0 ≤ ε) (hτ : 0 ≤ τ) (hBL : 0 ≤ BL) (hBR : 0 ≤ BR) (hj : 1 ≤ j) :
    k * ((1 - θ) * hom q h t (barrier (σ ^ 2 + 2 * |r - c|) k ε τ BL BR J n) j +
      θ * hom q h (t + k) (barrier (σ ^ 2 + 2 * |r - c|) k ε τ BL BR J (n + 1)) j + τ) ≤
    barrier (σ ^ 2 + 2 * |r - c|) k ε τ BL BR J (n + 1) j - barrier (σ ^ 2 + 2 * |r - c|) k ε τ BL BR J n j := by
  set κ := σ ^ 2 + 2 * |r - c| with hκd
  have hκ0 : 0 ≤ κ := by positivity
  set G := 1 / (1 - κ * k) with hG
  have hden : 0 < 1 - κ * k := by linarith
  have hG1 : G * (1 - κ * k) = 1 := by rw [hG]; field_simp
  have hG0 : 0 < G := by positivity
  have hGge : 1 ≤ G := by rw [hG, le_div_iff₀ hden]; nlinarith [mul_nonneg hκ0 hk.le]
  set P : ℕ → ℝ := fun j => BL * (1 / ((j : ℝ) + 1)) + BR * ((j : ℝ) / ((J : ℝ) - 1)) ^ 2 with hP
  have hP0 : 0 ≤ P j := by rw [hP]; positivity
  have homP : ∀ t, hom q h t P j ≤ κ * P j := by
    intro t
    have e : hom q h t P j = BL * hom q h t (fun j => 1 / ((j : ℝ) + 1)) j + BR * hom q h t (fun j => ((j : ℝ) / ((J : ℝ) - 1)) ^ 2) j := by
      rw [← hom_mul, ← hom_mul, ← hom_add]
    rw [e, hP]
    have a := mul_le_mul_of_nonneg_left (hom_left hq hh hr t hj) hBL
    have b := mul_le_mul_of_nonneg_left (hom_right hq hh hr t ((J : ℝ) - 1) hj) hBR
    dsimp only
    linarith
  have homB : ∀ t n, hom q h t (barrier κ k ε τ BL BR J n) j ≤ G ^ n * (κ * P j) := by
    intro t n
    have e : barrier κ k ε τ BL BR J n = fun j => (ε + n * k * τ) + G ^ n * P j := rfl
    rw [e, hom_add q h t (fun _ => ε + n * k * τ) (fun j => G ^ n * P j), hom_mul]
    have a := hom_const hq hh hr t (a := ε + n * k * τ) (by positivity) j
    have b := mul_le_mul_of_nonneg_left (homP t) (pow_nonneg hG0.le n)
    linarith
  have b1 := mul_le_mul_of_nonneg_left (homB t n) (by linarith : 0 ≤ 1 - θ)
  have b2 := mul_le_mul_of_nonneg_left (homB (t + k) (n + 1)) hθ0
  have hGn : 0 ≤ G ^ n := pow_nonneg hG0.le n
  have e : barrier κ k ε τ BL BR J (n + 1) j - barrier κ k ε τ BL BR J n j = k * τ + (G - 1) * G ^ n * P j := by
    change ε + ((n + 1 : ℕ) : ℝ) * k * τ + G ^ (n + 1) * P j - (ε + n * k * τ + G ^ n * P j) = _
    push_cast
    ring
  rw [e]
  have key : (1 - θ) * (G ^ n * (κ * P j)) + θ * (G ^ (n + 1) * (κ * P j)) ≤ G ^ n * (κ * P j) * G := by
    have hx : 0 ≤ G ^ n * (κ * P j) := by positivity
    rw [pow_succ]
    nlinarith [mul_nonneg (mul_nonneg (by linarith : 0 ≤ 1 - θ) hx) (by linarith : 0 ≤ G - 1)]
  have fin : k * (G ^ n * (κ * P j) * G) = (G - 1) * G ^ n * P j := by
    have : κ * k * G = G - 1 := by linarith
    linear_combination G ^ n * P j * this
  have := mul_le_mul_of_nonneg_left (b1.trans le_rfl) hk.le
  have t1 : k * ((1 - θ) * hom q h t (barrier κ k ε τ BL BR J n) j + θ * hom q h (t + k) (barrier κ k ε τ BL BR J (n + 1)) j + τ) ≤
      k * (G ^ n * (κ * P j) * G + τ) := mul_le_mul_of_nonneg_left (by linarith) hk.le
  linarith

end

end Verif.Fdm
