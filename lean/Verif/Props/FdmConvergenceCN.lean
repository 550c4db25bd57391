import Verif.Props.FdmConvergence
import Mathlib.Algebra.BigOperators.Field

/-!
# Property C67: the Crank-Nicolson solver
-/

namespace Verif
open Spec Fdm

namespace Fdm
open Set

/-- The trapezoidal rule. -/
theorem _root_.Verif.Taylor.trapezoid {v v1 v2 v3 : ℝ → ℝ} {T t k M : ℝ} (h0 : 0 ≤ t) (h1 : t + k ≤ T) (hk : 0 < k)
    (d1 : ∀ t ∈ Icc 0 T, HasDerivWithinAt v (v1 t) (Icc 0 T) t) (d2 : ∀ t ∈ Icc 0 T, HasDerivWithinAt v1 (v2 t) (Icc 0 T) t)
    (d3 : ∀ t ∈ Icc 0 T, HasDerivWithinAt v2 (v3 t) (Icc 0 T) t)
    (b : ∀ t ∈ Icc 0 T, |v3 t| ≤ M) : |(v (t + k) - v t) / k - 1 / 2 * v1 t - 1 / 2 * v1 (t + k)| ≤ M / 12 * k ^ 2 := by
  have hp : ∀ {s}, s ∈ Icc 0 k → t + s ∈ Icc 0 T := fun hs => ⟨by linarith [hs.1], by linarith [hs.2]⟩
  have g1 := Taylor.grow (g := fun s => 1 / 2 * (v1 (t + s) - v1 t - s * v2 (t + s))) (g' := fun s => -(1 / 2) * (s * v3 (t + s))) (h := k) (c := M / 2) 1
    (fun s hs => ((((Taylor.shift h0 h1 hs (d2 _ (hp hs))).sub_const _).sub
      ((hasDerivWithinAt_id s _).mul (Taylor.shift h0 h1 hs (d3 _ (hp hs))))).const_mul _).congr_deriv (by dsimp only [id]; ring))
    (by simp) (fun s hs => by
      rw [abs_mul, abs_mul, abs_of_nonneg hs.1]
      have := mul_le_mul_of_nonneg_left (b _ (hp hs)) hs.1
      norm_num
      linarith)
  have g0 := Taylor.grow (g := fun s => v (t + s) - v t - s * (1 / 2 * (v1 t + v1 (t + s)))) (g' := fun s => 1 / 2 * (v1 (t + s) - v1 t - s * v2 (t + s)))
    (h := k) (c := M / 4) 2
    (fun s hs => (((Taylor.shift h0 h1 hs (d1 _ (hp hs))).sub_const _).sub
      ((hasDerivWithinAt_id s _).mul (((Taylor.shift h0 h1 hs (d2 _ (hp hs))).const_add (v1 t)).const_mul _))).congr_deriv (by dsimp only [id]; ring))
    (by simp) (fun s hs => (g1 s hs).trans (le_of_eq (by push_cast; ring)))
  have := g0 k ⟨hk.le, le_rfl⟩
  have e : (v (t + k) - v t) / k - 1 / 2 * v1 t - 1 / 2 * v1 (t + k) = (v (t + k) - v t - k * (1 / 2 * (v1 t + v1 (t + k)))) / k := by
    field_simp; ring
  rw [e, abs_div, abs_of_pos hk, div_le_iff₀ hk]
  refine this.trans (le_of_eq ?_)
  push_cast
  ring

/-- One step of the averaged scheme adds at most `k τ` to the error. -/
theorem average_error {q : Problem} {J : ℕ} {h k t τ E : ℝ} {old new wold wnew : ℕ → ℝ} (hJ3 : 3 ≤ J) (hh : 0 < h) (hk : 0 < k)
    (hq : DiffusionDominates q J h) (hE : 0 ≤ E) (hτ : 0 ≤ τ)
    (hw3 : ∀ t j, 1 ≤ j → j + 1 < J → 0 ≤ 1 - k / 2 * (2 * q.D t (j * h) / h ^ 2 - q.R t (j * h)))
    (ho : ∀ j < J, |old j - wold j| ≤ E)
    (h0 : |new 0 - wnew 0| ≤ E + k * τ) (hJ : |new (J - 1) - wnew (J - 1)| ≤ E + k * τ)
    (hb : ∀ j, 1 ≤ j → j + 1 < J → (new j - old j) / k = 1 / 2 * central q h t old j + 1 / 2 * central q h (t + k) new j)
    (hw : ∀ j, 1 ≤ j → j + 1 < J →
      |(wnew j - wold j) / k - (1 / 2 * central q h t wold j + 1 / 2 * central q h (t + k) wnew j)| ≤ τ) :
    ∀ j < J, |new j - wnew j| ≤ E + k * τ := by
  -- half a forward step, then half a backward step
  have hk2 : 0 < k / 2 := by linarith
  set mid : ℕ → ℝ := fun j => if 1 ≤ j ∧ j + 1 < J then old j + k / 2 * central q h t old j else 0 with hmid
  set wmid : ℕ → ℝ := fun j => if 1 ≤ j ∧ j + 1 < J then wold j + k / 2 * central q h t wold j else 0 with hwmid
  have e1 := forward_error (τ := 0) (old := old) (new := mid) (wold := wold) (wnew := wmid) hh hk2 hq hE hw3 ho
    (by simp [hmid, hwmid, hE]) (by simp only [hmid, hwmid]; rw [if_neg (by omega), if_neg (by omega)]; simpa using hE)
    (fun j h1 h2 => by simp only [hmid]; rw [if_pos ⟨h1, h2⟩]; field_simp; ring)
    (fun j h1 h2 => by
      simp only [hwmid]; rw [if_pos ⟨h1, h2⟩]
      have : (wold j + k / 2 * central q h t wold j - wold j) / (k / 2) - central q h t wold j = 0 := by field_simp; ring
      rw [this, abs_zero])
  rw [mul_zero, add_zero] at e1
  have e2 := backward_error (t := t + k / 2) (τ := 2 * τ) (old := mid) (new := new) (wold := wmid) (wnew := wnew) hh hk2 hq hE (by linarith) e1
    (by rw [show k / 2 * (2 * τ) = k * τ by ring]; exact h0) (by rw [show k / 2 * (2 * τ) = k * τ by ring]; exact hJ)
    (fun j h1 h2 => by
      rw [show t + k / 2 + k / 2 = t + k by ring]
      have := hb j h1 h2
      rw [div_eq_iff hk.ne'] at this
      simp only [hmid]; rw [if_pos ⟨h1, h2⟩, div_eq_iff hk2.ne']
      linear_combination this)
    (fun j h1 h2 => by
      rw [show t + k / 2 + k / 2 = t + k by ring]
      simp only [hwmid]; rw [if_pos ⟨h1, h2⟩]
      have e : (wnew j - (wold j + k / 2 * central q h t wold j)) / (k / 2) - central q h (t + k) wnew j =
          2 * ((wnew j - wold j) / k - (1 / 2 * central q h t wold j + 1 / 2 * central q h (t + k) wnew j)) := by field_simp; ring
      rw [e, abs_mul, abs_two]
      linarith [hw j h1 h2])
  intro j hj
  rw [show k * τ = k / 2 * (2 * τ) by ring]
  exact e2 j hj

theorem central_congr {q : Problem} {h t : ℝ} {a b : ℕ → ℝ} {j : ℕ} (h0 : a (j - 1) = b (j - 1)) (h1 : a j = b j) (h2 : a (j + 1) = b (j + 1)) :
    central q h t a j = central q h t b j := by
  unfold central; rw [h0, h1, h2]

end Fdm

/-- **C67 (partial).** The Crank-Nicolson solver with the Thomas algorithm converges with second order if all
boundary values are 0 and its weights are not negative on the grid.
Missing (see `C67_crankNicolson_fails`): boundary values other than 0. -/
theorem C67_crankNicolson_partial (p : Pde ℝ) (q : Problem) (hp : Describes p q) (xDom tDom : ℝ) (J N : ℕ) (junk : ℕ → ℝ) (hJ : 4 ≤ J)
    (hm : J ≤ 2 ^ 31) (hN : 2 ≤ N) (hX : 0 < xDom) (hT : 0 < tDom) (hq : DiffusionDominates q J (xDom / (J - 1)))
    (hw : ∀ t j, 1 ≤ j → j + 1 < J →
      0 ≤ 1 - tDom / (N - 1) / 2 * (2 * q.D t (j * (xDom / (J - 1))) / (xDom / (J - 1)) ^ 2 - q.R t (j * (xDom / (J - 1)))))
    (u : ℝ → ℝ → ℝ) (S : SmoothSolution q xDom tDom u) (Dm Cm M2 M3 M4 : ℝ) (hB : Bounded S Dm Cm M2 M3 M4)
    (uttt : ℝ → ℝ → ℝ) (M : ℝ) (hTTT : ∀ t ∈ Set.Icc 0 tDom, ∀ x ∈ Set.Icc 0 xDom, HasDerivWithinAt (fun t => S.utt t x) (uttt t x) (Set.Icc 0 tDom) t)
    (hM : ∀ t ∈ Set.Icc 0 tDom, ∀ x ∈ Set.Icc 0 xDom, |uttt t x| ≤ M)
    (hl : ∀ t ∈ Set.Icc 0 tDom, u t 0 = 0) (hr : ∀ t ∈ Set.Icc 0 tDom, u t xDom = 0) :
    ∃ s, construct (.crankNicolson thomas) xDom J tDom N p junk = .ok s ∧ ∀ fuel, N ≤ fuel → ∃ v,
      (solve (.crankNicolson thomas) p fuel s).1 = .ok v ∧ v.length = J ∧ ∀ (j : ℕ) (y : ℝ), v[j]? = some y →
      |y - u tDom (j * (xDom / (J - 1)))| ≤
        tDom * (M / 12 * (tDom / (N - 1)) ^ 2 + (Dm * M4 / 12 + Cm * M3 / 6) * (xDom / (J - 1)) ^ 2) := by
  obtain ⟨s, hs, h⟩ := C56_partial p q hp xDom tDom J N junk hJ hm hN hX hT hq
  refine ⟨s, hs, fun fuel hf => ?_⟩
  obtain ⟨U, hu, h0, hn⟩ := h fuel hf
  refine ⟨_, hu, by simp, fun j y hy => ?_⟩
  obtain ⟨hj, rfl⟩ := map_range_getElem? hy
  have hJ1 : (0 : ℝ) < J - 1 := by
    have : (4 : ℝ) ≤ J := by exact_mod_cast hJ
    linarith
  have hN1 : (0 : ℝ) < N - 1 := by
    have : (2 : ℝ) ≤ N := by exact_mod_cast hN
    linarith
  have hk : 0 < tDom / (N - 1) := div_pos hT hN1
  have hh : 0 < xDom / (J - 1) := div_pos hX hJ1
  have hlast : ((J - 1 : ℕ) : ℝ) * (xDom / (J - 1)) = xDom := last_node (by omega)
  have hnode : ∀ j : ℕ, j < J → (j : ℝ) * (xDom / (J - 1)) ∈ Set.Icc 0 xDom := fun j hj => time_le (by omega) hX (by omega)
  have z : (0 : ℝ) ∈ Set.Icc 0 tDom := ⟨le_rfl, hT.le⟩
  have z' : (0 : ℝ) ∈ Set.Icc 0 xDom := ⟨le_rfl, hX.le⟩
  have hτ : 0 ≤ M / 12 * (tDom / (N - 1)) ^ 2 + (Dm * M4 / 12 + Cm * M3 / 6) * (xDom / (J - 1)) ^ 2 := by
    have := (abs_nonneg _).trans (hB.D 0 z 0 z')
    have := (abs_nonneg _).trans (hB.C 0 z 0 z')
    have := (abs_nonneg _).trans (hM 0 z 0 z')
    have := (abs_nonneg _).trans (hB.xxx 0 z 0 z')
    have := (abs_nonneg _).trans (hB.xxxx 0 z 0 z')
    positivity
  set τ := M / 12 * (tDom / (N - 1)) ^ 2 + (Dm * M4 / 12 + Cm * M3 / 6) * (xDom / (J - 1)) ^ 2 with hτd
  -- all levels vanish at the boundary
  have ends : ∀ n ≤ N - 1, U n 0 = 0 ∧ U n (J - 1) = 0 := by
    intro n hle
    cases n with
    | zero =>
      rw [h0 0 (by omega), h0 (J - 1) (by omega), hlast, Nat.cast_zero, zero_mul, ← S.initial _ z', ← S.initial _ ⟨hX.le, le_rfl⟩]
      exact ⟨hl 0 z, hr 0 z⟩
    | succ n =>
      obtain ⟨-, b0, bJ⟩ := hn n (by omega)
      have ht := time_le hN hT hle
      have ht' : (n : ℝ) * (tDom / (N - 1)) + tDom / (N - 1) = ((n + 1 : ℕ) : ℝ) * (tDom / (N - 1)) := by push_cast; ring
      have tp : (0 : ℝ) < ((n + 1 : ℕ) : ℝ) * (tDom / (N - 1)) := by positivity
      rw [ht'] at b0 bJ
      rw [b0, bJ, ← S.left _ ⟨tp, ht.2⟩, ← S.right _ ⟨tp, ht.2⟩]
      exact ⟨hl _ ht, hr _ ht⟩
  have same : ∀ n ≤ N - 1, ∀ j < J, withoutEnds J (U n) j = U n j := by
    intro n hle j hj
    unfold withoutEnds
    split
    · rfl
    · obtain ⟨e0, eJ⟩ := ends n hle
      rcases (show j = 0 ∨ j = J - 1 by omega) with rfl | rfl
      · exact e0.symm
      · exact eJ.symm
  have all : ∀ n ≤ N - 1, ∀ j < J, |U n j - u (n * (tDom / (N - 1))) (j * (xDom / (J - 1)))| ≤ n * (tDom / (N - 1)) * τ := by
    intro n
    induction n with
    | zero =>
      intro _ j hj
      rw [h0 j hj, ← S.initial _ (hnode j hj)]
      simp
    | succ n ih =>
      intro hle j hj
      obtain ⟨hb, -⟩ := hn n (by omega)
      have ht := time_le hN hT hle
      have hs := time_le hN hT (show n ≤ N - 1 by omega)
      have ht' : (n : ℝ) * (tDom / (N - 1)) + tDom / (N - 1) = ((n + 1 : ℕ) : ℝ) * (tDom / (N - 1)) := by push_cast; ring
      have hnn : 0 ≤ (n : ℝ) * (tDom / (N - 1)) * τ + tDom / (N - 1) * τ := by positivity
      refine (average_error (t := n * (tDom / (N - 1))) (old := U n) (wold := fun j => u (n * (tDom / (N - 1))) (j * (xDom / (J - 1))))
        (wnew := fun j => u ((n + 1 : ℕ) * (tDom / (N - 1))) (j * (xDom / (J - 1)))) (by omega) hh hk hq (by positivity) hτ hw (ih (by omega)) ?_ ?_ ?_ ?_ j hj).trans
        (le_of_eq (by push_cast; ring))
      · rw [(ends _ hle).1, Nat.cast_zero, zero_mul, hl _ ht, sub_self, abs_zero]
        exact hnn
      · rw [(ends _ hle).2, hlast, hr _ ht, sub_self, abs_zero]
        exact hnn
      · intro j h1 h2
        rw [hb j h1 h2, central_congr (same n (by omega) _ (by omega)) (same n (by omega) _ (by omega)) (same n (by omega) _ (by omega))]
      · intro j h1 h2
        rw [ht']
        have c1 := consistent S hh hs h1 (by have := (hnode (j + 1) h2).2; push_cast at this; exact this)
          (hB.D _ hs _ (hnode j (by omega))) (hB.C _ hs _ (hnode j (by omega))) (hB.xxx _ hs) (hB.xxxx _ hs)
        have c2 := consistent S hh ht h1 (by have := (hnode (j + 1) h2).2; push_cast at this; exact this)
          (hB.D _ ht _ (hnode j (by omega))) (hB.C _ ht _ (hnode j (by omega))) (hB.xxx _ ht) (hB.xxxx _ ht)
        have d := Taylor.trapezoid (v := fun t => u t (j * (xDom / (J - 1)))) (t := (n : ℝ) * (tDom / (N - 1))) (k := tDom / (N - 1))
          hs.1 (by rw [ht']; exact ht.2) hk (fun t ht => S.hasT t ht _ (hnode j (by omega))) (fun t ht => S.hasTT t ht _ (hnode j (by omega)))
          (fun t ht => hTTT t ht _ (hnode j (by omega))) (fun t ht => hM t ht _ (hnode j (by omega)))
        rw [ht'] at d
        rw [hτd]
        set c1' := central q (xDom / (J - 1)) (n * (tDom / (N - 1))) (fun j => u (n * (tDom / (N - 1))) (j * (xDom / (J - 1)))) j
        set c2' := central q (xDom / (J - 1)) (((n + 1 : ℕ) : ℝ) * (tDom / (N - 1)))
          (fun j => u (((n + 1 : ℕ) : ℝ) * (tDom / (N - 1))) (j * (xDom / (J - 1)))) j
        rw [abs_le] at *
        constructor <;> linarith [c1.1, c1.2, c2.1, c2.2, d.1, d.2]
  have := all (N - 1) le_rfl j hj
  rwa [last_time hN] at this

example : ∃ s, construct (.crankNicolson thomas) Real.pi 4 1 3 heat (fun _ => 0) = .ok s ∧ ∃ v, (solve (.crankNicolson thomas) heat 3 s).1 = .ok v ∧
    ∀ (j : ℕ) (y : ℝ), v[j]? = some y →
      |y - Real.exp (-1) * Real.sin (j * (Real.pi / ((4 : ℕ) - 1)))| ≤ 1 / 48 + 1 / 12 * (Real.pi / 3) ^ 2 := by
  obtain ⟨s, hs, h⟩ := C67_crankNicolson_partial heat heatProblem heat_describes Real.pi 1 4 3 (fun _ => 0) (by norm_num) (by norm_num) (by norm_num)
    Real.pi_pos one_pos (heat_dominates _) (by
      intro t j _ _
      have h3 := Real.pi_gt_three
      have : 1 ≤ (Real.pi / ((4 : ℕ) - 1)) ^ 2 := by
        have : 1 ≤ Real.pi / ((4 : ℕ) - 1) := by
          norm_num
          linarith
        nlinarith
      simp only [heatProblem]
      have : 2 * 1 / (Real.pi / ((4 : ℕ) - 1)) ^ 2 ≤ 2 := by
        rw [div_le_iff₀ (by positivity)]
        linarith
      norm_num at this ⊢
      linarith) _ (heatSolution 1) 1 0 1 1 1 (heat_bounded 1) (fun t x => -(Real.exp (-t) * Real.sin x)) 1
    (fun t _ x _ => (((hasDerivAt_neg t).exp.mul_const (Real.sin x)).congr_deriv (by ring)).hasDerivWithinAt)
    (fun t ht x _ => by rw [abs_neg]; exact heat_abs ht.1 (Real.abs_sin_le_one x))
    (by simp) (by simp)
  obtain ⟨v, hv, -, he⟩ := h 3 le_rfl
  refine ⟨s, hs, v, hv, fun j y hy => (he j y hy).trans (le_of_eq ?_)⟩
  norm_num

/-! ### No convergence for other boundary values -/

/-- The heat equation with the constant solution 1. -/
noncomputable def ones : Pde ℝ where
  diffusion _ _ := .ok 1
  convection _ _ := .ok 0
  reaction _ _ := .ok 0
  rightHandSide _ _ := .ok 0
  boundaryLeft _ _ := .ok 1
  boundaryRight _ _ := .ok 1
  initialCondition _ := .ok 1

/-- The same as a problem. -/
noncomputable def onesProblem : Problem where
  D _ _ := 1
  C _ _ := 0
  R _ _ := 0
  f _ _ := 0
  left _ _ := 1
  right _ _ := 1
  initial _ := 1

theorem ones_describes : Describes ones onesProblem := ⟨fun _ _ => rfl, fun _ _ => rfl, fun _ _ => rfl, fun _ _ => rfl,
  fun _ _ => rfl, fun _ _ => rfl, fun _ => rfl⟩

theorem ones_dominates (J : ℕ) {h : ℝ} : DiffusionDominates onesProblem J h := fun t j _ _ => by simp [onesProblem]

/-- Its solution. -/
noncomputable def onesSolution (L T : ℝ) : SmoothSolution onesProblem L T fun _ _ => 1 where
  ut _ _ := 0
  utt _ _ := 0
  ux _ _ := 0
  uxx _ _ := 0
  uxxx _ _ := 0
  uxxxx _ _ := 0
  hasT _ _ _ _ := hasDerivWithinAt_const _ _ _
  hasTT _ _ _ _ := hasDerivWithinAt_const _ _ _
  hasX _ _ _ _ := hasDerivWithinAt_const _ _ _
  hasXX _ _ _ _ := hasDerivWithinAt_const _ _ _
  hasXXX _ _ _ _ := hasDerivWithinAt_const _ _ _
  hasXXXX _ _ _ _ := hasDerivWithinAt_const _ _ _
  equation _ _ _ _ := by simp [onesProblem]
  initial _ _ := rfl
  left _ _ := rfl
  right _ _ := rfl

namespace Fdm

/-- Summation by parts. -/
theorem green (φ w : ℕ → ℝ) (m : ℕ) : ∑ j ∈ Finset.range m, (φ (j + 1) * (w (j + 2) - 2 * w (j + 1) + w j) -
    w (j + 1) * (φ (j + 2) - 2 * φ (j + 1) + φ j)) = (φ m * w (m + 1) - φ (m + 1) * w m) - (φ 0 * w 1 - φ 1 * w 0) := by
  induction m with
  | zero => simp
  | succ m ih => rw [Finset.sum_range_succ, ih]; ring

/-- Summation by parts for the eigenvector `sin (j h)`, with `m + 1` intervals of length `h = π / (m + 1)`. -/
theorem green_sin {m : ℕ} {h : ℝ} (hm : ((m + 1 : ℕ) : ℝ) * h = Real.pi) (w : ℕ → ℝ) :
    ∑ j ∈ Finset.range m, Real.sin ((j + 1 : ℕ) * h) * (w (j + 2) - 2 * w (j + 1) + w j) =
      Real.sin h * (w (m + 1) + w 0) - (2 - 2 * Real.cos h) * ∑ j ∈ Finset.range m, Real.sin ((j + 1 : ℕ) * h) * w (j + 1) := by
  have g := green (fun j => Real.sin (j * h)) w m
  have hlast : Real.sin (m * h) = Real.sin h := by
    have : (m : ℝ) * h = Real.pi - h := by push_cast at hm; linarith
    rw [this, Real.sin_pi_sub]
  rw [hm, hlast] at g
  simp only [Real.sin_pi, zero_mul, sub_zero, Nat.cast_zero, Real.sin_zero, Nat.cast_one, one_mul, zero_sub, sub_neg_eq_add] at g
  have e : ∀ j : ℕ, Real.sin ((j + 2 : ℕ) * h) - 2 * Real.sin ((j + 1 : ℕ) * h) + Real.sin (j * h) =
      -(2 - 2 * Real.cos h) * Real.sin ((j + 1 : ℕ) * h) := by
    intro j
    have e1 : ((j + 2 : ℕ) : ℝ) * h = ((j + 1 : ℕ) : ℝ) * h + h := by push_cast; ring
    have e2 : (j : ℝ) * h = ((j + 1 : ℕ) : ℝ) * h - h := by push_cast; ring
    rw [e1, e2, Real.sin_add, Real.sin_sub]
    ring
  rw [Finset.sum_sub_distrib] at g
  have e' : ∑ j ∈ Finset.range m, w (j + 1) * (Real.sin ((j + 2 : ℕ) * h) - 2 * Real.sin ((j + 1 : ℕ) * h) + Real.sin (j * h)) =
      -(2 - 2 * Real.cos h) * ∑ j ∈ Finset.range m, Real.sin ((j + 1 : ℕ) * h) * w (j + 1) := by
    rw [Finset.mul_sum]
    refine Finset.sum_congr rfl fun j _ => ?_
    rw [e]; ring
  rw [e'] at g
  linarith

end Fdm

/-- **C67 fails for Crank-Nicolson.** For the heat equation with boundary and initial values 1, whose solution is the
constant 1, the Crank-Nicolson solver with the Thomas algorithm is wrong by at least 1/7 at some node,
on every grid and for every number of time steps: no refinement makes it converge. -/
theorem C67_crankNicolson_fails (J N : ℕ) (junk : ℕ → ℝ) (hJ : 4 ≤ J) (hm : J ≤ 2 ^ 31) (hN : 2 ≤ N) :
    ∃ s, construct (.crankNicolson thomas) Real.pi J 1 N ones junk = .ok s ∧ ∀ fuel, N ≤ fuel → ∃ v,
      (solve (.crankNicolson thomas) ones fuel s).1 = .ok v ∧ v.length = J ∧ ∃ (j : ℕ) (y : ℝ), v[j]? = some y ∧ 1 / 7 ≤ |y - 1| := by
  obtain ⟨s, hs, hsol⟩ := C56_partial ones onesProblem ones_describes Real.pi 1 J N junk hJ hm hN Real.pi_pos one_pos (ones_dominates _)
  refine ⟨s, hs, fun fuel hf => ?_⟩
  obtain ⟨U, hu, h0, hn⟩ := hsol fuel hf
  refine ⟨_, hu, by simp, ?_⟩
  obtain ⟨m, rfl⟩ : ∃ m, J = m + 2 := ⟨J - 2, by omega⟩
  obtain ⟨n', rfl⟩ : ∃ n', N = n' + 1 := ⟨N - 1, by omega⟩
  have hm1 : (((m + 2 : ℕ) : ℝ) - 1) = m + 1 := by push_cast; ring
  have hn1 : (((n' + 1 : ℕ) : ℝ) - 1) = n' := by push_cast; ring
  rw [hm1] at hn h0
  rw [hn1] at hn
  have hmp : (0 : ℝ) < m + 1 := by positivity
  have hnp : (0 : ℝ) < n' := by exact_mod_cast (by omega : 0 < n')
  set h := Real.pi / (m + 1) with hh
  have hmh : ((m + 1 : ℕ) : ℝ) * h = Real.pi := by rw [hh]; push_cast; field_simp
  have hpos : 0 < h := div_pos Real.pi_pos hmp
  have hle1 : h ≤ Real.pi := div_le_self Real.pi_pos.le (by linarith [Nat.cast_nonneg (α := ℝ) m])
  set k : ℝ := 1 / n' with hk
  have kpos : 0 < k := by positivity
  have kle : k ≤ 1 := by rw [hk, div_le_one hnp]; exact_mod_cast (by omega : 1 ≤ n')
  -- the eigenvalue
  set lam := (2 - 2 * Real.cos h) / h ^ 2 with hlam
  have hcos : 2 - 2 * Real.cos h = 4 * Real.sin (h / 2) ^ 2 := by
    have : Real.cos h = 1 - 2 * Real.sin (h / 2) ^ 2 := by
      have := Real.cos_two_mul (h / 2)
      rw [show 2 * (h / 2) = h by ring] at this
      rw [this, Real.cos_sq']
      ring
    linarith
  have sin_lo : 2 / Real.pi * (h / 2) ≤ Real.sin (h / 2) := Real.mul_le_sin (by linarith) (by linarith)
  have sin_hi : Real.sin (h / 2) ≤ h / 2 := Real.sin_le (by linarith)
  have lam_lo : 0.4 ≤ lam := by
    rw [hlam, hcos, le_div_iff₀ (by positivity)]
    have h1 : (1 / Real.pi * h) ^ 2 ≤ Real.sin (h / 2) ^ 2 := by
      refine pow_le_pow_left₀ (by positivity) ?_ 2
      calc 1 / Real.pi * h = 2 / Real.pi * (h / 2) := by ring
        _ ≤ _ := sin_lo
    have h2 : (0.1 : ℝ) ≤ (1 / Real.pi) ^ 2 := by
      rw [div_pow, one_pow, le_div_iff₀ (by positivity)]
      have := Real.pi_lt_d2
      nlinarith [Real.pi_pos]
    rw [mul_pow] at h1
    nlinarith [sq_nonneg h]
  have lam_hi : lam ≤ 1 := by
    rw [hlam, hcos, div_le_one (by positivity)]
    have := pow_le_pow_left₀ (Real.sin_nonneg_of_nonneg_of_le_pi (by linarith) (by linarith : h / 2 ≤ Real.pi)) sin_hi 2
    nlinarith
  -- the weighted sum of the inner values
  set A : (ℕ → ℝ) → ℝ := fun w => ∑ j ∈ Finset.range m, Real.sin ((j + 1 : ℕ) * h) * w (j + 1) with hA
  have hAc : ∀ w t, ∑ j ∈ Finset.range m, Real.sin ((j + 1 : ℕ) * h) * central onesProblem h t w (j + 1) =
      Real.sin h / h ^ 2 * (w (m + 1) + w 0) - lam * A w := by
    intro w t
    have e : ∀ j, central onesProblem h t w (j + 1) = (w (j + 2) - 2 * w (j + 1) + w j) / h ^ 2 := by
      intro j; simp [central, onesProblem]
    simp only [e]
    have g := green_sin hmh w
    simp only [hA, hlam]
    rw [show (∑ j ∈ Finset.range m, Real.sin ((j + 1 : ℕ) * h) * ((w (j + 2) - 2 * w (j + 1) + w j) / h ^ 2)) =
      (∑ j ∈ Finset.range m, Real.sin ((j + 1 : ℕ) * h) * (w (j + 2) - 2 * w (j + 1) + w j)) / h ^ 2 by
        rw [Finset.sum_div]; exact Finset.sum_congr rfl fun j _ => by ring, g]
    ring
  have hA1 : Real.sin h / h ^ 2 * 2 = lam * A fun _ => 1 := by
    have := hAc (fun _ => 1) 0
    have z : ∀ j, central onesProblem h 0 (fun _ => 1) (j + 1) = 0 := by intro j; norm_num [central, onesProblem]
    simp only [z, mul_zero, Finset.sum_const_zero] at this
    linarith
  set A1 := A fun _ => 1 with hA1d
  have sinpos : ∀ j < m, 0 < Real.sin ((j + 1 : ℕ) * h) := by
    intro j hj
    refine Real.sin_pos_of_pos_of_lt_pi (by positivity) ?_
    rw [← hmh]
    have : ((j + 1 : ℕ) : ℝ) < ((m + 1 : ℕ) : ℝ) := by exact_mod_cast (by omega : j + 1 < m + 1)
    exact mul_lt_mul_of_pos_right this hpos
  have A1pos : 0 < A1 := by
    rw [hA1d, hA]
    simp only [mul_one]
    exact Finset.sum_pos (fun j hj => sinpos j (by simpa using hj)) ⟨0, by simp; omega⟩
  have bd : ∀ n ≤ n', U n 0 = 1 ∧ U n (m + 1) = 1 := by
    intro n hle
    cases n with
    | zero => exact ⟨h0 0 (by omega), h0 (m + 1) (by omega)⟩
    | succ n =>
      obtain ⟨-, b0, bJ⟩ := hn n (by omega)
      exact ⟨b0, bJ⟩
  have step : ∀ n < n', A (U (n + 1)) - A (U n) = k * (lam * A1 / 2 - lam * (A (U n) + A (U (n + 1))) / 2) := by
    intro n hlt
    obtain ⟨hb, -⟩ := hn n (by omega)
    have e : ∀ j ∈ Finset.range m, Real.sin ((j + 1 : ℕ) * h) * U (n + 1) (j + 1) - Real.sin ((j + 1 : ℕ) * h) * U n (j + 1) =
        k * (1 / 2 * (Real.sin ((j + 1 : ℕ) * h) * central onesProblem h (n * k) (withoutEnds (m + 2) (U n)) (j + 1)) +
          1 / 2 * (Real.sin ((j + 1 : ℕ) * h) * central onesProblem h (n * k + k) (U (n + 1)) (j + 1))) := by
      intro j hj
      have hj : j < m := by simpa using hj
      have := hb (j + 1) (by omega) (by omega)
      rw [div_eq_iff kpos.ne'] at this
      linear_combination Real.sin ((j + 1 : ℕ) * h) * this
    have s := Finset.sum_congr rfl e
    rw [Finset.sum_sub_distrib, ← Finset.mul_sum, Finset.sum_add_distrib, ← Finset.mul_sum, ← Finset.mul_sum, hAc, hAc] at s
    have w0 : withoutEnds (m + 2) (U n) 0 = 0 := by simp [withoutEnds]
    have w1 : withoutEnds (m + 2) (U n) (m + 1) = 0 := by simp [withoutEnds]
    have wA : A (withoutEnds (m + 2) (U n)) = A (U n) := by
      refine Finset.sum_congr rfl fun j hj => ?_
      have hj : j < m := by simpa using hj
      rw [withoutEnds, if_pos (by omega)]
    rw [w0, w1, wA, (bd (n + 1) (by omega)).1, (bd (n + 1) (by omega)).2] at s
    have s' : A (U (n + 1)) - A (U n) = _ := s
    rw [s']
    linear_combination k / 2 * hA1
  -- the error of the weighted sum
  have grows : ∀ n ≤ n', A1 / 2 * (1 - (1 / (1 + k * lam)) ^ n) ≤ A1 - A (U n) := by
    intro n
    induction n with
    | zero =>
      intro _
      have : A (U 0) = A1 := by
        refine Finset.sum_congr rfl fun j hj => ?_
        have hj : j < m := by simpa using hj
        rw [h0 (j + 1) (by omega)]
        rfl
      rw [this]; simp
    | succ n ih =>
      intro hle
      have st := step n (by omega)
      have ih := ih (by omega)
      have hkl : 0 < k * lam := by positivity
      have hkl1 : k * lam ≤ 1 := by
        calc k * lam ≤ 1 * 1 := mul_le_mul kle lam_hi (by linarith) zero_le_one
          _ = 1 := one_mul 1
      set x := k * lam with hx
      set R := (1 / (1 + x)) ^ n with hR
      have hRpos : 0 ≤ R := by positivity
      have e1 : (A1 - A (U (n + 1))) * (1 + x / 2) = (A1 - A (U n)) * (1 - x / 2) + x * A1 / 2 := by
        rw [hx]; linear_combination -st
      have e2 : (A1 - A (U (n + 1))) * (1 + x / 2) ≥ A1 / 2 * (1 - R) * (1 - x / 2) + x * A1 / 2 := by
        rw [e1]
        have := mul_le_mul_of_nonneg_right ih (by linarith : 0 ≤ 1 - x / 2)
        linarith
      have e3 : A1 / 2 * (1 - R) * (1 - x / 2) + x * A1 / 2 = A1 / 2 * ((1 + x / 2) - R * (1 - x / 2)) := by ring
      have e4 : R * (1 - x / 2) ≤ R * (1 / (1 + x)) * (1 + x / 2) := by
        rw [mul_assoc]
        refine mul_le_mul_of_nonneg_left ?_ hRpos
        rw [div_mul_eq_mul_div, one_mul, le_div_iff₀ (by linarith)]
        nlinarith
      rw [pow_succ, ← hR]
      have e5 : A1 / 2 * (1 - R * (1 / (1 + x))) * (1 + x / 2) ≤ (A1 - A (U (n + 1))) * (1 + x / 2) := by
        refine le_trans ?_ e2
        rw [e3]
        have := mul_le_mul_of_nonneg_left e4 (by linarith : 0 ≤ A1 / 2)
        linarith
      exact le_of_mul_le_mul_right e5 (by linarith)
  have big : A1 / 7 ≤ A1 - A (U n') := by
    refine le_trans ?_ (grows n' le_rfl)
    have hkl : 0 < k * lam := by positivity
    have b := one_add_mul_le_pow (by linarith : (-2 : ℝ) ≤ k * lam) n'
    have e : (n' : ℝ) * (k * lam) = lam := by rw [hk]; field_simp
    rw [e] at b
    have : (1 / (1 + k * lam)) ^ n' ≤ 1 / 1.4 := by
      rw [div_pow, one_pow]
      exact one_div_le_one_div_of_le (by norm_num) (by linarith)
    have := mul_le_mul_of_nonneg_left this A1pos.le
    norm_num at this ⊢
    nlinarith
  -- so some inner value is off
  by_contra hc
  push Not at hc
  have small : ∀ j < m, 1 - U n' (j + 1) < 1 / 7 := by
    intro j hj
    have := hc (j + 1) (U n' (j + 1)) (by
      rw [List.getElem?_map, List.getElem?_range (by omega)]
      rfl)
    rw [abs_lt] at this
    linarith [this.1]
  have : A1 - A (U n') < A1 / 7 := by
    rw [hA1d, hA]
    dsimp only
    rw [← Finset.sum_sub_distrib, Finset.sum_div]
    refine Finset.sum_lt_sum_of_nonempty ⟨0, by simp; omega⟩ fun j hj => ?_
    have hj : j < m := by simpa using hj
    have := mul_lt_mul_of_pos_left (small j hj) (sinpos j hj)
    linarith
  linarith

example : ∃ s, construct (.crankNicolson thomas) Real.pi 1001 1 100001 ones (fun _ => 0) = .ok s ∧ ∃ v,
    (solve (.crankNicolson thomas) ones 100001 s).1 = .ok v ∧ ∃ (j : ℕ) (y : ℝ), v[j]? = some y ∧ 1 / 7 ≤ |y - 1| := by
  obtain ⟨s, hs, h⟩ := C67_crankNicolson_fails 1001 100001 (fun _ => 0) (by norm_num) (by norm_num) (by norm_num)
  obtain ⟨v, hv, -, he⟩ := h 100001 le_rfl
  exact ⟨s, hs, v, hv, he⟩

/-- **C67.** Implicit Euler returns the constant solution exactly on all these grids. -/
theorem C67_constant (J N : ℕ) (junk : ℕ → ℝ) (hJ : 4 ≤ J) (hm : J ≤ 2 ^ 31) (hN : 2 ≤ N) :
    ∃ s, construct (.implicit thomas) Real.pi J 1 N ones junk = .ok s ∧ ∀ fuel, N ≤ fuel →
      (solve (.implicit thomas) ones fuel s).1 = .ok (List.replicate J 1) := by
  obtain ⟨s, hs, h⟩ := C67_implicit ones onesProblem ones_describes Real.pi 1 J N junk hJ hm hN Real.pi_pos one_pos (ones_dominates _) _
    (onesSolution _ _) 1 0 0 0 0 ⟨fun _ _ _ _ => by simp [onesProblem], fun _ _ _ _ => by simp [onesProblem], fun _ _ _ _ => by simp [onesSolution],
      fun _ _ _ _ => by simp [onesSolution], fun _ _ _ _ => by simp [onesSolution]⟩
  refine ⟨s, hs, fun fuel hf => ?_⟩
  obtain ⟨v, hv, hl, he⟩ := h fuel hf
  rw [hv]
  congr 1
  refine List.eq_replicate_iff.mpr ⟨hl, fun y hy => ?_⟩
  obtain ⟨j, hj⟩ := List.mem_iff_getElem?.mp hy
  have := he j y hj
  norm_num at this
  linarith

example : ∃ s, construct (.implicit thomas) Real.pi 5 1 3 ones (fun _ => 0) = .ok s ∧
    (solve (.implicit thomas) ones 3 s).1 = .ok [1, 1, 1, 1, 1] := by
  obtain ⟨s, hs, h⟩ := C67_constant 5 3 (fun _ => 0) (by norm_num) (by norm_num) (by norm_num)
  exact ⟨s, hs, h 3 le_rfl⟩

end Verif
