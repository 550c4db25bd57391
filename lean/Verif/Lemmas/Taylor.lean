import Mathlib.Analysis.Calculus.MeanValue
import Mathlib.Analysis.Calculus.Deriv.Pow
import Mathlib.Analysis.Calculus.Deriv.Add
import Mathlib.Analysis.Calculus.Deriv.Mul
import Mathlib.Analysis.Calculus.Deriv.Comp
import Mathlib.Tactic.Linarith
import Mathlib.Tactic.Ring
import Mathlib.Tactic.FieldSimp

/-!
# Errors of difference quotients
-/

namespace Verif.Taylor
open Set

/-- A function that starts at 0 and whose derivative is at most `c s^n`, is at most `c s^(n+1) / (n+1)`. -/
theorem grow {g g' : ℝ → ℝ} {h c : ℝ} (n : ℕ) (hg : ∀ s ∈ Icc 0 h, HasDerivWithinAt g (g' s) (Icc 0 h) s) (h0 : g 0 = 0)
    (hb : ∀ s ∈ Icc 0 h, |g' s| ≤ c * s ^ n) : ∀ s ∈ Icc 0 h, |g s| ≤ c / (n + 1) * s ^ (n + 1) := by
  intro s hs
  have hn : (n : ℝ) + 1 ≠ 0 := by positivity
  have key := image_norm_le_of_norm_deriv_right_le_deriv_boundary (f := g) (f' := g') (a := 0) (b := h)
    (B := fun s => c / (n + 1) * s ^ (n + 1)) (B' := fun s => c * s ^ n)
    (fun x hx => (hg x hx).continuousWithinAt)
    (fun x hx => (hg x (Ico_subset_Icc_self hx)).mono_of_mem_nhdsWithin (Icc_mem_nhdsGE_of_mem hx))
    (by simp [h0])
    (fun x => by
      have := (hasDerivAt_pow (n + 1) x).const_mul (c / (n + 1))
      refine this.congr_deriv ?_
      push_cast
      field_simp)
    (fun x hx => by simpa using hb x (Ico_subset_Icc_self hx)) hs
  simpa using key

/-- `s ↦ v (x + s)` on `[0, h]`. -/
theorem shift {v : ℝ → ℝ} {L x h s v' : ℝ} (h0 : 0 ≤ x) (h1 : x + h ≤ L) (hs : s ∈ Icc 0 h)
    (hv : HasDerivWithinAt v v' (Icc 0 L) (x + s)) : HasDerivWithinAt (fun s => v (x + s)) v' (Icc 0 h) s := by
  have e : HasDerivWithinAt (fun s : ℝ => x + s) 1 (Icc 0 h) s := (hasDerivWithinAt_id s _).const_add x
  have := hv.comp s e (fun r hr => ⟨by linarith [hr.1], by linarith [hr.2]⟩)
  simpa [Function.comp_def] using this

/-- `s ↦ v (x - s)` on `[0, h]`. -/
theorem reflect {v : ℝ → ℝ} {L x h s v' : ℝ} (h0 : h ≤ x) (h1 : x ≤ L) (hs : s ∈ Icc 0 h)
    (hv : HasDerivWithinAt v v' (Icc 0 L) (x - s)) : HasDerivWithinAt (fun s => v (x - s)) (-v') (Icc 0 h) s := by
  have e : HasDerivWithinAt (fun s : ℝ => x - s) (-1) (Icc 0 h) s := (hasDerivWithinAt_id s _).const_sub x
  have := hv.comp s e (fun r hr => ⟨by linarith [hr.2], by linarith [hr.1]⟩)
  simpa [Function.comp_def] using this

section
variable {v v1 v2 v3 v4 : ℝ → ℝ} {L x h M3 M4 : ℝ} (hx0 : h ≤ x) (hx1 : x + h ≤ L) (hh : 0 < h)
  (d1 : ∀ x ∈ Icc 0 L, HasDerivWithinAt v (v1 x) (Icc 0 L) x) (d2 : ∀ x ∈ Icc 0 L, HasDerivWithinAt v1 (v2 x) (Icc 0 L) x)
  (d3 : ∀ x ∈ Icc 0 L, HasDerivWithinAt v2 (v3 x) (Icc 0 L) x) (d4 : ∀ x ∈ Icc 0 L, HasDerivWithinAt v3 (v4 x) (Icc 0 L) x)
  (b3 : ∀ x ∈ Icc 0 L, |v3 x| ≤ M3) (b4 : ∀ x ∈ Icc 0 L, |v4 x| ≤ M4)

include hx0 hx1 hh d1 d2 d3 b3 in
/-- The central difference quotient of first order. -/
theorem first : |(v (x + h) - v (x - h)) / (2 * h) - v1 x| ≤ M3 * h ^ 2 / 6 := by
  have hp : ∀ {s}, s ∈ Icc 0 h → x + s ∈ Icc 0 L := fun hs => ⟨by linarith [hs.1], by linarith [hs.2]⟩
  have hm : ∀ {s}, s ∈ Icc 0 h → x - s ∈ Icc 0 L := fun hs => ⟨by linarith [hs.2], by linarith [hs.1]⟩
  have g2 := grow (g := fun s => v2 (x + s) - v2 (x - s)) (g' := fun s => v3 (x + s) + v3 (x - s)) (h := h) (c := 2 * M3) 0
    (fun s hs => ((shift (by linarith) hx1 hs (d3 _ (hp hs))).sub (reflect hx0 (by linarith) hs (d3 _ (hm hs)))).congr_deriv (by ring))
    (by simp) (fun s hs => by
      have := abs_add_le (v3 (x + s)) (v3 (x - s))
      have := b3 _ (hp hs)
      have := b3 _ (hm hs)
      simp only [pow_zero, mul_one]
      linarith)
  have g1 := grow (g := fun s => v1 (x + s) + v1 (x - s) - 2 * v1 x) (g' := fun s => v2 (x + s) - v2 (x - s)) (h := h) (c := 2 * M3) 1
    (fun s hs => (((shift (by linarith) hx1 hs (d2 _ (hp hs))).add (reflect hx0 (by linarith) hs (d2 _ (hm hs)))).sub_const _).congr_deriv (by ring))
    (by simp; ring) (fun s hs => by have := g2 s hs; norm_num at this ⊢; exact this)
  have g0 := grow (g := fun s => v (x + s) - v (x - s) - s * (2 * v1 x)) (g' := fun s => v1 (x + s) + v1 (x - s) - 2 * v1 x) (h := h) (c := M3) 2
    (fun s hs => (((shift (by linarith) hx1 hs (d1 _ (hp hs))).sub (reflect hx0 (by linarith) hs (d1 _ (hm hs)))).sub
      ((hasDerivWithinAt_id s _).mul_const (2 * v1 x))).congr_deriv (by ring))
    (by simp) (fun s hs => by have := g1 s hs; norm_num at this ⊢; exact this)
  have := g0 h ⟨hh.le, le_rfl⟩
  have e : (v (x + h) - v (x - h)) / (2 * h) - v1 x = (v (x + h) - v (x - h) - h * (2 * v1 x)) / (2 * h) := by field_simp
  rw [e, abs_div, abs_of_pos (by linarith : 0 < 2 * h), div_le_iff₀ (by linarith)]
  refine this.trans (le_of_eq ?_)
  push_cast
  ring

include hx0 hx1 hh d1 d2 d3 d4 b4 in
/-- The central difference quotient of second order. -/
theorem second : |(v (x + h) - 2 * v x + v (x - h)) / h ^ 2 - v2 x| ≤ M4 * h ^ 2 / 12 := by
  have hp : ∀ {s}, s ∈ Icc 0 h → x + s ∈ Icc 0 L := fun hs => ⟨by linarith [hs.1], by linarith [hs.2]⟩
  have hm : ∀ {s}, s ∈ Icc 0 h → x - s ∈ Icc 0 L := fun hs => ⟨by linarith [hs.2], by linarith [hs.1]⟩
  have g3 := grow (g := fun s => v3 (x + s) - v3 (x - s)) (g' := fun s => v4 (x + s) + v4 (x - s)) (h := h) (c := 2 * M4) 0
    (fun s hs => ((shift (by linarith) hx1 hs (d4 _ (hp hs))).sub (reflect hx0 (by linarith) hs (d4 _ (hm hs)))).congr_deriv (by ring))
    (by simp) (fun s hs => by
      have := abs_add_le (v4 (x + s)) (v4 (x - s))
      have := b4 _ (hp hs)
      have := b4 _ (hm hs)
      simp only [pow_zero, mul_one]
      linarith)
  have g2 := grow (g := fun s => v2 (x + s) + v2 (x - s) - 2 * v2 x) (g' := fun s => v3 (x + s) - v3 (x - s)) (h := h) (c := 2 * M4) 1
    (fun s hs => (((shift (by linarith) hx1 hs (d3 _ (hp hs))).add (reflect hx0 (by linarith) hs (d3 _ (hm hs)))).sub_const _).congr_deriv (by ring))
    (by simp; ring) (fun s hs => by have := g3 s hs; norm_num at this ⊢; exact this)
  have g1 := grow (g := fun s => v1 (x + s) - v1 (x - s) - s * (2 * v2 x)) (g' := fun s => v2 (x + s) + v2 (x - s) - 2 * v2 x) (h := h) (c := M4) 2
    (fun s hs => (((shift (by linarith) hx1 hs (d2 _ (hp hs))).sub (reflect hx0 (by linarith) hs (d2 _ (hm hs)))).sub
      ((hasDerivWithinAt_id s _).mul_const (2 * v2 x))).congr_deriv (by ring))
    (by simp) (fun s hs => by have := g2 s hs; norm_num at this ⊢; exact this)
  have g0 := grow (g := fun s => v (x + s) + v (x - s) - 2 * v x - s ^ 2 * v2 x) (g' := fun s => v1 (x + s) - v1 (x - s) - s * (2 * v2 x)) (h := h)
    (c := M4 / 3) 3
    (fun s hs => ((((shift (by linarith) hx1 hs (d1 _ (hp hs))).add (reflect hx0 (by linarith) hs (d1 _ (hm hs)))).sub_const _).sub
      ((hasDerivAt_pow 2 s).hasDerivWithinAt.mul_const (v2 x))).congr_deriv (by norm_num; ring))
    (by simp; ring) (fun s hs => by have := g1 s hs; norm_num at this ⊢; exact this)
  have := g0 h ⟨hh.le, le_rfl⟩
  have e : (v (x + h) - 2 * v x + v (x - h)) / h ^ 2 - v2 x = (v (x + h) + v (x - h) - 2 * v x - h ^ 2 * v2 x) / h ^ 2 := by
    field_simp; ring
  rw [e, abs_div, abs_of_pos (by positivity : 0 < h ^ 2), div_le_iff₀ (by positivity)]
  refine this.trans (le_of_eq ?_)
  push_cast
  ring

end

/-- The linear approximation to the right. -/
theorem forward' {v v1 v2 : ℝ → ℝ} {T t k M : ℝ} (h0 : 0 ≤ t) (h1 : t + k ≤ T) (hk : 0 ≤ k)
    (d1 : ∀ t ∈ Icc 0 T, HasDerivWithinAt v (v1 t) (Icc 0 T) t) (d2 : ∀ t ∈ Icc 0 T, HasDerivWithinAt v1 (v2 t) (Icc 0 T) t)
    (b : ∀ t ∈ Icc 0 T, |v2 t| ≤ M) : |v (t + k) - v t - k * v1 t| ≤ M * k ^ 2 / 2 := by
  have hp : ∀ {s}, s ∈ Icc 0 k → t + s ∈ Icc 0 T := fun hs => ⟨by linarith [hs.1], by linarith [hs.2]⟩
  have g1 := grow (g := fun s => v1 (t + s) - v1 t) (g' := fun s => v2 (t + s)) (h := k) (c := M) 0
    (fun s hs => (shift h0 h1 hs (d2 _ (hp hs))).sub_const _) (by simp) (fun s hs => by simpa using b _ (hp hs))
  have g0 := grow (g := fun s => v (t + s) - v t - s * v1 t) (g' := fun s => v1 (t + s) - v1 t) (h := k) (c := M) 1
    (fun s hs => (((shift h0 h1 hs (d1 _ (hp hs))).sub_const _).sub ((hasDerivWithinAt_id s _).mul_const (v1 t))).congr_deriv (by ring))
    (by simp) (fun s hs => by have := g1 s hs; norm_num at this ⊢; exact this)
  refine (g0 k ⟨hk, le_rfl⟩).trans (le_of_eq ?_)
  push_cast
  ring

/-- The linear approximation to the left. -/
theorem backward' {v v1 v2 : ℝ → ℝ} {T t k M : ℝ} (h0 : k ≤ t) (h1 : t ≤ T) (hk : 0 ≤ k)
    (d1 : ∀ t ∈ Icc 0 T, HasDerivWithinAt v (v1 t) (Icc 0 T) t) (d2 : ∀ t ∈ Icc 0 T, HasDerivWithinAt v1 (v2 t) (Icc 0 T) t)
    (b : ∀ t ∈ Icc 0 T, |v2 t| ≤ M) : |v (t - k) - v t + k * v1 t| ≤ M * k ^ 2 / 2 := by
  have hm : ∀ {s}, s ∈ Icc 0 k → t - s ∈ Icc 0 T := fun hs => ⟨by linarith [hs.2], by linarith [hs.1]⟩
  have g1 := grow (g := fun s => v1 (t - s) - v1 t) (g' := fun s => -v2 (t - s)) (h := k) (c := M) 0
    (fun s hs => (reflect h0 h1 hs (d2 _ (hm hs))).sub_const _) (by simp) (fun s hs => by simpa using b _ (hm hs))
  have g0 := grow (g := fun s => v (t - s) - v t + s * v1 t) (g' := fun s => -(v1 (t - s) - v1 t)) (h := k) (c := M) 1
    (fun s hs => (((reflect h0 h1 hs (d1 _ (hm hs))).sub_const _).add ((hasDerivWithinAt_id s _).mul_const (v1 t))).congr_deriv (by ring))
    (by simp) (fun s hs => by have := g1 s hs; rw [abs_neg]; norm_num at this ⊢; exact this)
  refine (g0 k ⟨hk, le_rfl⟩).trans (le_of_eq ?_)
  push_cast
  ring

/-- The forward difference quotient. -/
theorem forward {v v1 v2 : ℝ → ℝ} {T t k M : ℝ} (h0 : 0 ≤ t) (h1 : t + k ≤ T) (hk : 0 < k)
    (d1 : ∀ t ∈ Icc 0 T, HasDerivWithinAt v (v1 t) (Icc 0 T) t) (d2 : ∀ t ∈ Icc 0 T, HasDerivWithinAt v1 (v2 t) (Icc 0 T) t)
    (b : ∀ t ∈ Icc 0 T, |v2 t| ≤ M) : |(v (t + k) - v t) / k - v1 t| ≤ M / 2 * k := by
  have e : (v (t + k) - v t) / k - v1 t = (v (t + k) - v t - k * v1 t) / k := by field_simp
  rw [e, abs_div, abs_of_pos hk, div_le_iff₀ hk]
  exact (forward' h0 h1 hk.le d1 d2 b).trans (le_of_eq (by ring))

/-- The backward difference quotient. -/
theorem backward {v v1 v2 : ℝ → ℝ} {T t k M : ℝ} (h0 : k ≤ t) (h1 : t ≤ T) (hk : 0 < k)
    (d1 : ∀ t ∈ Icc 0 T, HasDerivWithinAt v (v1 t) (Icc 0 T) t) (d2 : ∀ t ∈ Icc 0 T, HasDerivWithinAt v1 (v2 t) (Icc 0 T) t)
    (b : ∀ t ∈ Icc 0 T, |v2 t| ≤ M) : |(v t - v (t - k)) / k - v1 t| ≤ M / 2 * k := by
  have e : (v t - v (t - k)) / k - v1 t = -(v (t - k) - v t + k * v1 t) / k := by field_simp; ring
  rw [e, abs_div, abs_neg, abs_of_pos hk, div_le_iff₀ hk]
  exact (backward' h0 h1 hk.le d1 d2 b).trans (le_of_eq (by ring))

/-- Linear interpolation between `a` and `a + h`. -/
theorem chord {v v1 v2 : ℝ → ℝ} {L a h θ M : ℝ} (h0 : 0 ≤ a) (h1 : a + h ≤ L) (hh : 0 ≤ h) (t0 : 0 ≤ θ) (t1 : θ ≤ 1)
    (d1 : ∀ x ∈ Icc 0 L, HasDerivWithinAt v (v1 x) (Icc 0 L) x) (d2 : ∀ x ∈ Icc 0 L, HasDerivWithinAt v1 (v2 x) (Icc 0 L) x)
    (b : ∀ x ∈ Icc 0 L, |v2 x| ≤ M) : |(1 - θ) * v a + θ * v (a + h) - v (a + θ * h)| ≤ M * h ^ 2 / 8 := by
  have hθ : 0 ≤ θ * h := mul_nonneg t0 hh
  have hθ' : 0 ≤ (1 - θ) * h := mul_nonneg (by linarith) hh
  have f := forward' (t := a + θ * h) (k := (1 - θ) * h) (by linarith) (by linarith) hθ' d1 d2 b
  have g := backward' (t := a + θ * h) (k := θ * h) (by linarith) (by linarith) hθ d1 d2 b
  rw [show a + θ * h + (1 - θ) * h = a + h by ring] at f
  rw [show a + θ * h - θ * h = a by ring] at g
  have hM : 0 ≤ M := (abs_nonneg _).trans (b a ⟨h0, by linarith⟩)
  have e : (1 - θ) * v a + θ * v (a + h) - v (a + θ * h) = (1 - θ) * (v a - v (a + θ * h) + θ * h * v1 (a + θ * h)) +
      θ * (v (a + h) - v (a + θ * h) - (1 - θ) * h * v1 (a + θ * h)) := by ring
  rw [e]
  refine (abs_add_le _ _).trans ?_
  rw [abs_mul, abs_mul, abs_of_nonneg t0, abs_of_nonneg (by linarith : 0 ≤ 1 - θ)]
  have m1 := mul_le_mul_of_nonneg_left g (by linarith : 0 ≤ 1 - θ)
  have m2 := mul_le_mul_of_nonneg_left f t0
  have : θ * (1 - θ) ≤ 1 / 4 := by nlinarith [sq_nonneg (θ - 1 / 2)]
  have := mul_le_mul_of_nonneg_left this (by positivity : 0 ≤ M * h ^ 2 / 2)
  nlinarith

/-- A function of bounded derivative. -/
theorem lipschitz {v v1 : ℝ → ℝ} {T t k M : ℝ} (h0 : 0 ≤ t) (h1 : t + k ≤ T) (hk : 0 ≤ k)
    (d1 : ∀ t ∈ Icc 0 T, HasDerivWithinAt v (v1 t) (Icc 0 T) t) (b : ∀ t ∈ Icc 0 T, |v1 t| ≤ M) : |v (t + k) - v t| ≤ M * k := by
  have hp : ∀ {s}, s ∈ Icc 0 k → t + s ∈ Icc 0 T := fun hs => ⟨by linarith [hs.1], by linarith [hs.2]⟩
  have g := grow (g := fun s => v (t + s) - v t) (g' := fun s => v1 (t + s)) (h := k) (c := M) 0
    (fun s hs => (shift h0 h1 hs (d1 _ (hp hs))).sub_const _) (by simp) (fun s hs => by simpa using b _ (hp hs)) k ⟨hk, le_rfl⟩
  norm_num at g
  exact g

end Verif.Taylor
