import Verif.Props.FdmStability
import Verif.Props.FdmHistory
import Verif.Props.Interpolation
import Verif.Spec.SmoothSolution
import Verif.Lemmas.Taylor
import Mathlib.Analysis.SpecialFunctions.Trigonometric.Deriv
import Mathlib.Analysis.Real.Pi.Bounds

/-!
# Property C67: convergence of the Euler schemes
-/

namespace Verif
open Spec Fdm

namespace Fdm
open Set

/-- The error of the difference equations, per unit of time, for a solution with `|u_tt| ≤ M2`, `|u_xxx| ≤ M3`,
`|u_xxxx| ≤ M4` and coefficients `|D| ≤ Dm`, `|C| ≤ Cm`. -/
noncomputable def truncation (h k Dm Cm M2 M3 M4 : ℝ) : ℝ := M2 / 2 * k + (Dm * M4 / 12 + Cm * M3 / 6) * h ^ 2

/-- The difference operator is linear up to the source. -/
theorem central_sub (q : Problem) (h t : ℝ) (u w : ℕ → ℝ) (j : ℕ) : central q h t u j - central q h t w j =
    (q.D t (j * h) / h ^ 2 - q.C t (j * h) / (2 * h)) * ((u (j - 1) - w (j - 1)) - (u j - w j)) +
    (q.D t (j * h) / h ^ 2 + q.C t (j * h) / (2 * h)) * ((u (j + 1) - w (j + 1)) - (u j - w j)) + q.R t (j * h) * (u j - w j) := by
  rw [central_eq, central_eq]; ring

section
variable {q : Problem} {L T : ℝ} {u : ℝ → ℝ → ℝ} (S : SmoothSolution q L T u) {h t Dm Cm M3 M4 : ℝ}

include S in
/-- The difference operator approximates the differential operator. -/
theorem consistent (hh : 0 < h) (ht : t ∈ Icc 0 T) {j : ℕ} (h1 : 1 ≤ j) (h2 : (j + 1) * h ≤ L)
    (hD : |q.D t (j * h)| ≤ Dm) (hC : |q.C t (j * h)| ≤ Cm) (b3 : ∀ x ∈ Icc 0 L, |S.uxxx t x| ≤ M3)
    (b4 : ∀ x ∈ Icc 0 L, |S.uxxxx t x| ≤ M4) :
    |central q h t (fun j => u t (j * h)) j - S.ut t (j * h)| ≤ (Dm * M4 / 12 + Cm * M3 / 6) * h ^ 2 := by
  have hj : (1 : ℝ) ≤ j := by exact_mod_cast h1
  have hx0 : h ≤ j * h := by nlinarith
  have hx1 : j * h + h ≤ L := by linarith
  have f1 := Taylor.first hx0 hx1 hh (S.hasX t ht) (S.hasXX t ht) (S.hasXXX t ht) b3
  have f2 := Taylor.second hx0 hx1 hh (S.hasX t ht) (S.hasXX t ht) (S.hasXXX t ht) (S.hasXXXX t ht) b4
  have e1 : ((j + 1 : ℕ) : ℝ) * h = j * h + h := by push_cast; ring
  have e2 : ((j - 1 : ℕ) : ℝ) * h = j * h - h := by rw [Nat.cast_sub h1]; push_cast; ring
  unfold central
  dsimp only
  rw [e1, e2, S.equation t ht _ ⟨by linarith, by linarith⟩]
  set A := (u t (j * h + h) - 2 * u t (j * h) + u t (j * h - h)) / h ^ 2 with hA
  set B := (u t (j * h + h) - u t (j * h - h)) / (2 * h) with hB
  have e : q.D t (j * h) * A + q.C t (j * h) * B + q.R t (j * h) * u t (j * h) - q.f t (j * h) -
      (q.D t (j * h) * S.uxx t (j * h) + q.C t (j * h) * S.ux t (j * h) + q.R t (j * h) * u t (j * h) - q.f t (j * h)) =
      q.D t (j * h) * (A - S.uxx t (j * h)) + q.C t (j * h) * (B - S.ux t (j * h)) := by ring
  rw [e]
  refine (abs_add_le _ _).trans ?_
  rw [abs_mul, abs_mul]
  have m1 := mul_le_mul hD f2 (abs_nonneg _) ((abs_nonneg _).trans hD)
  have m2 := mul_le_mul hC f1 (abs_nonneg _) ((abs_nonneg _).trans hC)
  calc _ ≤ Dm * (M4 * h ^ 2 / 12) + Cm * (M3 * h ^ 2 / 6) := add_le_add m1 m2
    _ = _ := by ring

end

/-- One backward step adds at most `k τ` to the error, if the exact values `w` satisfy the difference equation
up to `τ`. -/
theorem backward_error {q : Problem} {J : ℕ} {h k t τ E : ℝ} {old new wold wnew : ℕ → ℝ} (hh : 0 < h) (hk : 0 < k)
    (hq : DiffusionDominates q J h) (hE : 0 ≤ E) (hτ : 0 ≤ τ) (ho : ∀ j < J, |old j - wold j| ≤ E)
    (h0 : |new 0 - wnew 0| ≤ E + k * τ) (hJ : |new (J - 1) - wnew (J - 1)| ≤ E + k * τ) (hb : BackwardEuler q J h k t old new)
    (hw : ∀ j, 1 ≤ j → j + 1 < J → |(wnew j - wold j) / k - central q h (t + k) wnew j| ≤ τ) :
    ∀ j < J, |new j - wnew j| ≤ E + k * τ := by
  intro j hj
  have hne : (Finset.range J).Nonempty := ⟨j, by simpa using hj⟩
  have key : ∀ i, 1 ≤ i → i + 1 < J → |(new i - wnew i) - (old i - wold i) - k * ((q.D (t + k) (i * h) / h ^ 2 - q.C (t + k) (i * h) / (2 * h)) *
      ((new (i - 1) - wnew (i - 1)) - (new i - wnew i)) + (q.D (t + k) (i * h) / h ^ 2 + q.C (t + k) (i * h) / (2 * h)) *
      ((new (i + 1) - wnew (i + 1)) - (new i - wnew i)) + q.R (t + k) (i * h) * (new i - wnew i))| ≤ k * τ := by
    intro i h1 h2
    have e := hb i h1 h2
    rw [← central_sub]
    rw [div_eq_iff hk.ne'] at e
    have := mul_le_mul_of_nonneg_left (hw i h1 h2) hk.le
    rw [← abs_of_pos hk, ← abs_mul, abs_of_pos hk] at this
    rw [← abs_neg]
    refine le_trans (le_of_eq ?_) this
    congr 1
    have : k * ((wnew i - wold i) / k) = wnew i - wold i := by field_simp
    linear_combination -e - this
  rw [abs_le]
  constructor
  · obtain ⟨i, hi, hmin⟩ := Finset.exists_min_image (Finset.range J) (fun j => new j - wnew j) hne
    refine le_trans ?_ (hmin j (by simpa using hj))
    have hi : i < J := by simpa using hi
    rcases Nat.eq_zero_or_pos i with rfl | h1
    · exact (abs_le.mp h0).1
    rcases (show i = J - 1 ∨ i + 1 < J by omega) with rfl | h2
    · exact (abs_le.mp hJ).1
    have e := (abs_le.mp (key i h1 h2)).1
    obtain ⟨w1, w2⟩ := weights_nonneg hh hq (t + k) h1 h2
    have hR := (hq (t + k) i h1 h2).2
    have d1 := mul_nonneg w1 (sub_nonneg.mpr (hmin (i - 1) (by simp; omega)))
    have d2 := mul_nonneg w2 (sub_nonneg.mpr (hmin (i + 1) (by simp; omega)))
    have o := (abs_le.mp (ho i hi)).1
    by_contra hc
    push Not at hc
    have hkτ := mul_nonneg hk.le hτ
    have : 0 ≤ q.R (t + k) (i * h) * (new i - wnew i) := mul_nonneg_of_nonpos_of_nonpos hR (by linarith)
    have := mul_nonneg hk.le (add_nonneg (add_nonneg d1 d2) this)
    linarith
  · obtain ⟨i, hi, hmax⟩ := Finset.exists_max_image (Finset.range J) (fun j => new j - wnew j) hne
    refine le_trans (hmax j (by simpa using hj)) ?_
    have hi : i < J := by simpa using hi
    rcases Nat.eq_zero_or_pos i with rfl | h1
    · exact (abs_le.mp h0).2
    rcases (show i = J - 1 ∨ i + 1 < J by omega) with rfl | h2
    · exact (abs_le.mp hJ).2
    have e := (abs_le.mp (key i h1 h2)).2
    obtain ⟨w1, w2⟩ := weights_nonneg hh hq (t + k) h1 h2
    have hR := (hq (t + k) i h1 h2).2
    have d1 := mul_nonneg w1 (sub_nonneg.mpr (hmax (i - 1) (by simp; omega)))
    have d2 := mul_nonneg w2 (sub_nonneg.mpr (hmax (i + 1) (by simp; omega)))
    have o := (abs_le.mp (ho i hi)).2
    by_contra hc
    push Not at hc
    have hkτ := mul_nonneg hk.le hτ
    have : 0 ≤ -(q.R (t + k) (i * h) * (new i - wnew i)) := neg_nonneg.mpr (mul_nonpos_of_nonpos_of_nonneg hR (by linarith))
    have := mul_nonneg hk.le (add_nonneg (add_nonneg d1 d2) this)
    linarith

/-- One forward step with weights that are not negative adds at most `k τ` to the error. -/
theorem forward_error {q : Problem} {J : ℕ} {h k t τ E : ℝ} {old new wold wnew : ℕ → ℝ} (hh : 0 < h) (hk : 0 < k)
    (hq : DiffusionDominates q J h) (hE : 0 ≤ E)
    (hw3 : ∀ t j, 1 ≤ j → j + 1 < J → 0 ≤ 1 - k * (2 * q.D t (j * h) / h ^ 2 - q.R t (j * h)))
    (ho : ∀ j < J, |old j - wold j| ≤ E)
    (h0 : |new 0 - wnew 0| ≤ E + k * τ) (hJ : |new (J - 1) - wnew (J - 1)| ≤ E + k * τ) (hb : ForwardEuler q J h k t old new)
    (hw : ∀ j, 1 ≤ j → j + 1 < J → |(wnew j - wold j) / k - central q h t wold j| ≤ τ) :
    ∀ j < J, |new j - wnew j| ≤ E + k * τ := by
  intro i hi
  rcases Nat.eq_zero_or_pos i with rfl | h1
  · exact h0
  rcases (show i = J - 1 ∨ i + 1 < J by omega) with rfl | h2
  · exact hJ
  have e := hb i h1 h2
  rw [div_eq_iff hk.ne'] at e
  have c := central_sub q h t old wold i
  obtain ⟨w1, w2⟩ := weights_nonneg hh hq t h1 h2
  have w3 := hw3 t i h1 h2
  have hR := (hq t i h1 h2).2
  set a := q.D t (i * h) / h ^ 2 - q.C t (i * h) / (2 * h) with ha
  set g := q.D t (i * h) / h ^ 2 + q.C t (i * h) / (2 * h) with hg
  have hag : 2 * q.D t (i * h) / h ^ 2 = a + g := by rw [ha, hg]; ring
  rw [hag] at w3
  have hkw : k * ((wnew i - wold i) / k) = wnew i - wold i := by field_simp
  have e' : new i - wnew i = (1 - k * (a + g - q.R t (i * h))) * (old i - wold i) + k * a * (old (i - 1) - wold (i - 1)) +
      k * g * (old (i + 1) - wold (i + 1)) - k * ((wnew i - wold i) / k - central q h t wold i) := by
    linear_combination e + k * c + hkw
  have p1 := mul_nonneg hk.le w1
  have p2 := mul_nonneg hk.le w2
  have m : ∀ {c x : ℝ}, 0 ≤ c → |x| ≤ E → |c * x| ≤ c * E := fun hc hx => by
    rw [abs_mul, abs_of_nonneg hc]; exact mul_le_mul_of_nonneg_left hx hc
  have o1 := m w3 (ho i hi)
  have o2 := m p1 (ho (i - 1) (by omega))
  have o3 := m p2 (ho (i + 1) h2)
  have o4 : |k * ((wnew i - wold i) / k - central q h t wold i)| ≤ k * τ := by
    rw [abs_mul, abs_of_pos hk]; exact mul_le_mul_of_nonneg_left (hw i h1 h2) hk.le
  rw [e']
  have s1 := abs_sub ((1 - k * (a + g - q.R t (i * h))) * (old i - wold i) + k * a * (old (i - 1) - wold (i - 1)) +
      k * g * (old (i + 1) - wold (i + 1))) (k * ((wnew i - wold i) / k - central q h t wold i))
  have s2 := abs_add_le ((1 - k * (a + g - q.R t (i * h))) * (old i - wold i) + k * a * (old (i - 1) - wold (i - 1)))
      (k * g * (old (i + 1) - wold (i + 1)))
  have s3 := abs_add_le ((1 - k * (a + g - q.R t (i * h))) * (old i - wold i)) (k * a * (old (i - 1) - wold (i - 1)))
  have hkR := mul_nonneg (mul_nonneg hk.le (neg_nonneg.mpr hR)) hE
  nlinarith

/-- Times on the grid. -/
theorem time_le {tDom : ℝ} {N n : ℕ} (hN : 2 ≤ N) (hT : 0 < tDom) (hn : n ≤ N - 1) :
    0 ≤ (n : ℝ) * (tDom / (N - 1)) ∧ (n : ℝ) * (tDom / (N - 1)) ≤ tDom := by
  have hN1 : (0 : ℝ) < N - 1 := by
    have : (2 : ℝ) ≤ N := by exact_mod_cast hN
    linarith
  refine ⟨by positivity, ?_⟩
  have h1 : (n : ℝ) ≤ N - 1 := by
    have : ((n : ℕ) : ℝ) ≤ ((N - 1 : ℕ) : ℝ) := by exact_mod_cast hn
    rwa [Nat.cast_sub (by omega), Nat.cast_one] at this
  calc (n : ℝ) * (tDom / (N - 1)) ≤ (N - 1) * (tDom / (N - 1)) := by gcongr
    _ = tDom := by field_simp

section
variable {q : Problem} {xDom tDom : ℝ} {u : ℝ → ℝ → ℝ} {S : SmoothSolution q xDom tDom u} {Dm Cm M2 M3 M4 : ℝ}

theorem truncation_nonneg (hB : Bounded S Dm Cm M2 M3 M4) (hX : 0 < xDom) (hT : 0 < tDom) {h k : ℝ} (hk : 0 ≤ k) :
    0 ≤ truncation h k Dm Cm M2 M3 M4 := by
  have z : (0 : ℝ) ∈ Icc 0 tDom := ⟨le_rfl, hT.le⟩
  have z' : (0 : ℝ) ∈ Icc 0 xDom := ⟨le_rfl, hX.le⟩
  have := (abs_nonneg _).trans (hB.D 0 z 0 z')
  have := (abs_nonneg _).trans (hB.C 0 z 0 z')
  have := (abs_nonneg _).trans (hB.tt 0 z 0 z')
  have := (abs_nonneg _).trans (hB.xxx 0 z 0 z')
  have := (abs_nonneg _).trans (hB.xxxx 0 z 0 z')
  unfold truncation
  positivity

/-- The error of all levels of implicit Euler. -/
theorem implicit_error (hB : Bounded S Dm Cm M2 M3 M4) {J N : ℕ} (hJ : 2 ≤ J) (hN : 2 ≤ N) (hX : 0 < xDom) (hT : 0 < tDom)
    (hq : DiffusionDominates q J (xDom / (J - 1))) {U : ℕ → ℕ → ℝ} (h0 : ∀ j < J, U 0 j = q.initial (j * (xDom / (J - 1))))
    (hn : ∀ n < N - 1, BackwardEuler q J (xDom / (J - 1)) (tDom / (N - 1)) (n * (tDom / (N - 1))) (U n) (U (n + 1)) ∧
        BoundaryAt q J xDom (n * (tDom / (N - 1)) + tDom / (N - 1)) (U (n + 1))) :
    ∀ n ≤ N - 1, ∀ j < J, |U n j - u (n * (tDom / (N - 1))) (j * (xDom / (J - 1)))| ≤
      n * (tDom / (N - 1)) * truncation (xDom / (J - 1)) (tDom / (N - 1)) Dm Cm M2 M3 M4 := by
  have hJ1 : (0 : ℝ) < J - 1 := by
    have : (2 : ℝ) ≤ J := by exact_mod_cast hJ
    linarith
  have hN1 : (0 : ℝ) < N - 1 := by
    have : (2 : ℝ) ≤ N := by exact_mod_cast hN
    linarith
  have hk : 0 < tDom / (N - 1) := div_pos hT hN1
  have hh : 0 < xDom / (J - 1) := div_pos hX hJ1
  have hlast : ((J - 1 : ℕ) : ℝ) * (xDom / (J - 1)) = xDom := last_node hJ
  have hnode : ∀ j : ℕ, j < J → (j : ℝ) * (xDom / (J - 1)) ∈ Icc 0 xDom := fun j hj => time_le hJ hX (by omega)
  have hτ : 0 ≤ truncation (xDom / (J - 1)) (tDom / (N - 1)) Dm Cm M2 M3 M4 := truncation_nonneg hB hX hT hk.le
  set τ := truncation (xDom / (J - 1)) (tDom / (N - 1)) Dm Cm M2 M3 M4 with hτd
  intro n
  induction n with
  | zero =>
    intro _ j hj
    rw [h0 j hj, ← S.initial _ (hnode j hj)]
    simp
  | succ n ih =>
    intro hle j hj
    obtain ⟨hb, b0, bJ⟩ := hn n (by omega)
    have ht := time_le hN hT hle
    have ht' : (n : ℝ) * (tDom / (N - 1)) + tDom / (N - 1) = ((n + 1 : ℕ) : ℝ) * (tDom / (N - 1)) := by push_cast; ring
    have tp : (0 : ℝ) < ((n + 1 : ℕ) : ℝ) * (tDom / (N - 1)) := by positivity
    rw [ht'] at b0 bJ
    have hnn : 0 ≤ (n : ℝ) * (tDom / (N - 1)) * τ + tDom / (N - 1) * τ := by positivity
    refine (backward_error (wold := fun j => u (n * (tDom / (N - 1))) (j * (xDom / (J - 1))))
      (wnew := fun j => u ((n + 1 : ℕ) * (tDom / (N - 1))) (j * (xDom / (J - 1)))) hh hk hq (by positivity) hτ (ih (by omega)) ?_ ?_ hb ?_ j hj).trans
      (le_of_eq (by push_cast; ring))
    · rw [b0, Nat.cast_zero, zero_mul, S.left _ ⟨tp, ht.2⟩, sub_self, abs_zero]
      exact hnn
    · rw [bJ, hlast, S.right _ ⟨tp, ht.2⟩, sub_self, abs_zero]
      exact hnn
    · intro j h1 h2
      rw [ht']
      have c := consistent S hh ⟨tp.le, ht.2⟩ h1 (by have := (hnode (j + 1) h2).2; push_cast at this; exact this)
        (hB.D _ ⟨tp.le, ht.2⟩ _ (hnode j (by omega))) (hB.C _ ⟨tp.le, ht.2⟩ _ (hnode j (by omega)))
        (hB.xxx _ ⟨tp.le, ht.2⟩) (hB.xxxx _ ⟨tp.le, ht.2⟩)
      have d := Taylor.backward (v := fun t => u t (j * (xDom / (J - 1)))) (t := ((n + 1 : ℕ) : ℝ) * (tDom / (N - 1))) (k := tDom / (N - 1))
        (by rw [← ht']; have : 0 ≤ (n : ℝ) * (tDom / (N - 1)) := by positivity
            linarith) ht.2 hk (fun t ht => S.hasT t ht _ (hnode j (by omega))) (fun t ht => S.hasTT t ht _ (hnode j (by omega)))
        (fun t ht => hB.tt t ht _ (hnode j (by omega)))
      rw [show ((n + 1 : ℕ) : ℝ) * (tDom / (N - 1)) - tDom / (N - 1) = n * (tDom / (N - 1)) by push_cast; ring] at d
      rw [hτd, truncation]
      have tri := abs_sub ((u (((n + 1 : ℕ) : ℝ) * (tDom / (N - 1))) (j * (xDom / (J - 1))) - u (n * (tDom / (N - 1))) (j * (xDom / (J - 1)))) / (tDom / (N - 1)) -
        S.ut (((n + 1 : ℕ) : ℝ) * (tDom / (N - 1))) (j * (xDom / (J - 1))))
        (central q (xDom / (J - 1)) (((n + 1 : ℕ) : ℝ) * (tDom / (N - 1))) (fun j => u (((n + 1 : ℕ) : ℝ) * (tDom / (N - 1))) (j * (xDom / (J - 1)))) j -
          S.ut (((n + 1 : ℕ) : ℝ) * (tDom / (N - 1))) (j * (xDom / (J - 1))))
      rw [sub_sub_sub_cancel_right] at tri
      linarith

/-- The error of all levels of explicit Euler; `|u_t| ≤ M1` at both boundaries. -/
theorem explicit_error (hB : Bounded S Dm Cm M2 M3 M4) {J N : ℕ} {M1 : ℝ} (hJ : 2 ≤ J) (hN : 2 ≤ N) (hX : 0 < xDom) (hT : 0 < tDom)
    (hq : DiffusionDominates q J (xDom / (J - 1)))
    (hw : ∀ t j, 1 ≤ j → j + 1 < J →
      0 ≤ 1 - tDom / (N - 1) * (2 * q.D t (j * (xDom / (J - 1))) / (xDom / (J - 1)) ^ 2 - q.R t (j * (xDom / (J - 1)))))
    (hl : u 0 0 = q.left 0 0) (hr : u 0 xDom = q.right 0 xDom) (b0 : ∀ t ∈ Icc 0 tDom, |S.ut t 0| ≤ M1) (b1 : ∀ t ∈ Icc 0 tDom, |S.ut t xDom| ≤ M1)
    {U : ℕ → ℕ → ℝ} (h0 : ∀ j < J, U 0 j = q.initial (j * (xDom / (J - 1))))
    (hn : ∀ n < N - 1, ForwardEuler q J (xDom / (J - 1)) (tDom / (N - 1)) (n * (tDom / (N - 1))) (U n) (U (n + 1)) ∧
        BoundaryAt q J xDom (n * (tDom / (N - 1))) (U (n + 1))) :
    ∀ n ≤ N - 1, ∀ j < J, |U n j - u (n * (tDom / (N - 1))) (j * (xDom / (J - 1)))| ≤
      M1 * (tDom / (N - 1)) + n * (tDom / (N - 1)) * truncation (xDom / (J - 1)) (tDom / (N - 1)) Dm Cm M2 M3 M4 := by
  have hJ1 : (0 : ℝ) < J - 1 := by
    have : (2 : ℝ) ≤ J := by exact_mod_cast hJ
    linarith
  have hN1 : (0 : ℝ) < N - 1 := by
    have : (2 : ℝ) ≤ N := by exact_mod_cast hN
    linarith
  have hk : 0 < tDom / (N - 1) := div_pos hT hN1
  have hh : 0 < xDom / (J - 1) := div_pos hX hJ1
  have hlast : ((J - 1 : ℕ) : ℝ) * (xDom / (J - 1)) = xDom := last_node hJ
  have hnode : ∀ j : ℕ, j < J → (j : ℝ) * (xDom / (J - 1)) ∈ Icc 0 xDom := fun j hj => time_le hJ hX (by omega)
  have hτ : 0 ≤ truncation (xDom / (J - 1)) (tDom / (N - 1)) Dm Cm M2 M3 M4 := truncation_nonneg hB hX hT hk.le
  set τ := truncation (xDom / (J - 1)) (tDom / (N - 1)) Dm Cm M2 M3 M4 with hτd
  have hM1 : 0 ≤ M1 := (abs_nonneg _).trans (b0 0 ⟨le_rfl, hT.le⟩)
  intro n
  induction n with
  | zero =>
    intro _ j hj
    rw [h0 j hj, ← S.initial _ (hnode j hj)]
    simp
    positivity
  | succ n ih =>
    intro hle j hj
    obtain ⟨hb, c0, cJ⟩ := hn n (by omega)
    have ht := time_le hN hT hle
    have hs := time_le hN hT (show n ≤ N - 1 by omega)
    have ht' : (n : ℝ) * (tDom / (N - 1)) + tDom / (N - 1) = ((n + 1 : ℕ) : ℝ) * (tDom / (N - 1)) := by push_cast; ring
    have hnn : 0 ≤ (n : ℝ) * (tDom / (N - 1)) * τ + tDom / (N - 1) * τ := by positivity
    have hl' : u (n * (tDom / (N - 1))) 0 = q.left (n * (tDom / (N - 1))) 0 := by
      rcases hs.1.eq_or_lt with h | h
      · rw [← h]; exact hl
      · exact S.left _ ⟨h, hs.2⟩
    have hr' : u (n * (tDom / (N - 1))) xDom = q.right (n * (tDom / (N - 1))) xDom := by
      rcases hs.1.eq_or_lt with h | h
      · rw [← h]; exact hr
      · exact S.right _ ⟨h, hs.2⟩
    refine (forward_error (wold := fun j => u (n * (tDom / (N - 1))) (j * (xDom / (J - 1))))
      (wnew := fun j => u ((n + 1 : ℕ) * (tDom / (N - 1))) (j * (xDom / (J - 1)))) (τ := τ) hh hk hq ?_ hw (ih (by omega)) ?_ ?_ hb ?_ j hj).trans
      (le_of_eq (by push_cast; ring))
    · positivity
    · have := Taylor.lipschitz (v := fun t => u t 0) hs.1 (by rw [ht']; exact ht.2) hk.le (fun t ht => S.hasT t ht 0 ⟨le_rfl, hX.le⟩) b0
      rw [ht', abs_sub_comm] at this
      rw [c0, Nat.cast_zero, zero_mul, ← hl']
      linarith
    · have := Taylor.lipschitz (v := fun t => u t xDom) hs.1 (by rw [ht']; exact ht.2) hk.le (fun t ht => S.hasT t ht xDom ⟨hX.le, le_rfl⟩) b1
      rw [ht', abs_sub_comm] at this
      rw [cJ, hlast, ← hr']
      linarith
    · intro j h1 h2
      have c := consistent S hh hs h1 (by have := (hnode (j + 1) h2).2; push_cast at this; exact this)
        (hB.D _ hs _ (hnode j (by omega))) (hB.C _ hs _ (hnode j (by omega))) (hB.xxx _ hs) (hB.xxxx _ hs)
      have d := Taylor.forward (v := fun t => u t (j * (xDom / (J - 1)))) (t := (n : ℝ) * (tDom / (N - 1))) (k := tDom / (N - 1))
        hs.1 (by rw [ht']; exact ht.2) hk (fun t ht => S.hasT t ht _ (hnode j (by omega))) (fun t ht => S.hasTT t ht _ (hnode j (by omega)))
        (fun t ht => hB.tt t ht _ (hnode j (by omega)))
      rw [ht'] at d
      rw [hτd, truncation]
      have tri := abs_sub ((u (((n + 1 : ℕ) : ℝ) * (tDom / (N - 1))) (j * (xDom / (J - 1))) - u (n * (tDom / (N - 1))) (j * (xDom / (J - 1)))) / (tDom / (N - 1)) -
        S.ut (n * (tDom / (N - 1))) (j * (xDom / (J - 1))))
        (central q (xDom / (J - 1)) (n * (tDom / (N - 1))) (fun j => u (n * (tDom / (N - 1))) (j * (xDom / (J - 1)))) j -
          S.ut (n * (tDom / (N - 1))) (j * (xDom / (J - 1))))
      rw [sub_sub_sub_cancel_right] at tri
      linarith

end

/-- The linear interpolant of approximate values. -/
theorem line_error {v v1 v2 : ℝ → ℝ} {L a h x M E y1 y2 : ℝ} (h0 : 0 ≤ a) (h1 : a + h ≤ L) (hh : 0 < h) (hx0 : a ≤ x) (hx1 : x ≤ a + h)
    (d1 : ∀ x ∈ Icc 0 L, HasDerivWithinAt v (v1 x) (Icc 0 L) x) (d2 : ∀ x ∈ Icc 0 L, HasDerivWithinAt v1 (v2 x) (Icc 0 L) x)
    (b : ∀ x ∈ Icc 0 L, |v2 x| ≤ M) (e1 : |y1 - v a| ≤ E) (e2 : |y2 - v (a + h)| ≤ E) :
    |Interp.line a y1 (a + h) y2 x - v x| ≤ E + M * h ^ 2 / 8 := by
  have t0 : 0 ≤ (x - a) / h := div_nonneg (by linarith) hh.le
  have t1 : (x - a) / h ≤ 1 := by rw [div_le_one hh]; linarith
  have ex : a + (x - a) / h * h = x := by field_simp; ring
  have c := Taylor.chord (θ := (x - a) / h) h0 h1 hh.le t0 t1 d1 d2 b
  rw [ex] at c
  have e : Interp.line a y1 (a + h) y2 x - v x = (1 - (x - a) / h) * (y1 - v a) + (x - a) / h * (y2 - v (a + h)) +
      ((1 - (x - a) / h) * v a + (x - a) / h * v (a + h) - v x) := by
    rw [Interp.line, add_sub_cancel_left]; field_simp; ring
  rw [e]
  generalize (x - a) / h = θ at *
  have m1 : |(1 - θ) * (y1 - v a)| ≤ (1 - θ) * E := by
    rw [abs_mul, abs_of_nonneg (by linarith : 0 ≤ 1 - θ)]; exact mul_le_mul_of_nonneg_left e1 (by linarith)
  have m2 : |θ * (y2 - v (a + h))| ≤ θ * E := by
    rw [abs_mul, abs_of_nonneg t0]; exact mul_le_mul_of_nonneg_left e2 t0
  have s1 := abs_add_le ((1 - θ) * (y1 - v a) + θ * (y2 - v (a + h))) ((1 - θ) * v a + θ * v (a + h) - v x)
  have s2 := abs_add_le ((1 - θ) * (y1 - v a)) (θ * (y2 - v (a + h)))
  linarith

/-- The parabola through approximate values. -/
theorem parabola_error {v v1 v2 : ℝ → ℝ} {L a h x M E y0 y1 y2 : ℝ} (h0 : h ≤ a) (h1 : a + h ≤ L) (hh : 0 < h) (hx0 : a ≤ x) (hx1 : x ≤ a + h)
    (d1 : ∀ x ∈ Icc 0 L, HasDerivWithinAt v (v1 x) (Icc 0 L) x) (d2 : ∀ x ∈ Icc 0 L, HasDerivWithinAt v1 (v2 x) (Icc 0 L) x)
    (b : ∀ x ∈ Icc 0 L, |v2 x| ≤ M) (e0 : |y0 - v (a - h)| ≤ E) (e1 : |y1 - v a| ≤ E) (e2 : |y2 - v (a + h)| ≤ E) :
    |Interp.parabola (a - h) y0 a y1 (a + h) y2 x - v x| ≤ 5 / 4 * E + M * h ^ 2 / 2 := by
  obtain ⟨θ, rfl⟩ : ∃ θ, x = a + θ * h := ⟨(x - a) / h, by field_simp; ring⟩
  have t0 : 0 ≤ θ := by by_contra hc; push Not at hc; nlinarith
  have t1 : θ ≤ 1 := by by_contra hc; push Not at hc; nlinarith
  have hE : 0 ≤ E := (abs_nonneg _).trans e0
  have hM : 0 ≤ M := (abs_nonneg _).trans (b a ⟨by linarith, by linarith⟩)
  have hθ : 0 ≤ θ * h := mul_nonneg t0 hh.le
  have hθ' : 0 ≤ (1 - θ) * h := mul_nonneg (by linarith) hh.le
  have f2 := Taylor.forward' (t := a + θ * h) (k := (1 - θ) * h) (by linarith) (by linarith) hθ' d1 d2 b
  have f1 := Taylor.backward' (t := a + θ * h) (k := θ * h) (by linarith) (by linarith) hθ d1 d2 b
  have f0 := Taylor.backward' (t := a + θ * h) (k := (1 + θ) * h) (by linarith) (by linarith) (by nlinarith) d1 d2 b
  rw [show a + θ * h + (1 - θ) * h = a + h by ring] at f2
  rw [show a + θ * h - θ * h = a by ring] at f1
  rw [show a + θ * h - (1 + θ) * h = a - h by ring] at f0
  have e : Interp.parabola (a - h) y0 a y1 (a + h) y2 (a + θ * h) =
      -(θ * (1 - θ) / 2) * y0 + (1 - θ) * (1 + θ) * y1 + θ * (1 + θ) / 2 * y2 := by
    rw [Interp.parabola]
    rw [show a - h - a = -h by ring, show a - h - (a + h) = -(2 * h) by ring, show a - (a - h) = h by ring, show a - (a + h) = -h by ring,
      show a + h - (a - h) = 2 * h by ring, show a + h - a = h by ring, show a + θ * h - a = θ * h by ring,
      show a + θ * h - (a + h) = (θ - 1) * h by ring, show a + θ * h - (a - h) = (θ + 1) * h by ring]
    field_simp
    ring
  rw [e]
  set p := v (a + θ * h)
  set d := v1 (a + θ * h)
  have split : -(θ * (1 - θ) / 2) * y0 + (1 - θ) * (1 + θ) * y1 + θ * (1 + θ) / 2 * y2 - p =
      -(θ * (1 - θ) / 2) * (y0 - v (a - h)) + (1 - θ) * (1 + θ) * (y1 - v a) + θ * (1 + θ) / 2 * (y2 - v (a + h)) +
      (-(θ * (1 - θ) / 2) * (v (a - h) - p + (1 + θ) * h * d) + (1 - θ) * (1 + θ) * (v a - p + θ * h * d) +
        θ * (1 + θ) / 2 * (v (a + h) - p - (1 - θ) * h * d)) := by ring
  have w0 : 0 ≤ θ * (1 - θ) / 2 := by have := mul_nonneg t0 (by linarith : 0 ≤ 1 - θ); linarith
  have w1 : 0 ≤ (1 - θ) * (1 + θ) := mul_nonneg (by linarith) (by linarith)
  have w2 : 0 ≤ θ * (1 + θ) / 2 := by have := mul_nonneg t0 (by linarith : 0 ≤ 1 + θ); linarith
  have m : ∀ {c x B : ℝ}, 0 ≤ c → |x| ≤ B → |c * x| ≤ c * B := fun hc hx => by
    rw [abs_mul, abs_of_nonneg hc]; exact mul_le_mul_of_nonneg_left hx hc
  have m' : ∀ {c x B : ℝ}, 0 ≤ c → |x| ≤ B → |-c * x| ≤ c * B := fun hc hx => by
    rw [neg_mul, abs_neg]; exact m hc hx
  have a0 := m' w0 e0
  have a1 := m w1 e1
  have a2 := m w2 e2
  have c0 := m' w0 f0
  have c1 := m w1 f1
  have c2 := m w2 f2
  rw [split]
  refine (abs_add_le _ _).trans (add_le_add ?_ ?_)
  · refine (abs_add_le _ _).trans ((add_le_add ((abs_add_le _ _).trans (add_le_add a0 a1)) a2).trans ?_)
    have : θ * (1 - θ) ≤ 1 / 4 := by nlinarith [sq_nonneg (θ - 1 / 2)]
    have := mul_le_mul_of_nonneg_right this hE
    calc _ = E + θ * (1 - θ) * E := by ring
      _ ≤ _ := by linarith
  · refine (abs_add_le _ _).trans ((add_le_add ((abs_add_le _ _).trans (add_le_add c0 c1)) c2).trans ?_)
    have q1 : θ * (1 - θ) ≤ 1 / 4 := by nlinarith [sq_nonneg (θ - 1 / 2)]
    have q2 : (1 + θ) ^ 2 ≤ 4 := by nlinarith
    have q3 : θ * (1 - θ) * (1 + θ) ^ 2 ≤ 1 := by
      calc _ ≤ 1 / 4 * 4 := mul_le_mul q1 q2 (sq_nonneg _) (by norm_num)
        _ = 1 := by norm_num
    have := mul_le_mul_of_nonneg_right q3 (by positivity : 0 ≤ M * h ^ 2 / 2)
    calc _ = θ * (1 - θ) * (1 + θ) ^ 2 * (M * h ^ 2 / 2) := by ring
      _ ≤ _ := by linarith

/-- Both interpolations use values near `x` only. -/
theorem interpolate_local (kd : Interp.Kind) {v v1 v2 : ℝ → ℝ} {L h x M E : ℝ} {J : ℕ} {ys : List ℝ} (hJ : 2 ≤ J) (hm : J ≤ 2 ^ 31)
    (hh : 0 < h) (hL : ((J - 1 : ℕ) : ℝ) * h = L) (hx : x ∈ Icc 0 L) (hl : ys.length = J)
    (d1 : ∀ x ∈ Icc 0 L, HasDerivWithinAt v (v1 x) (Icc 0 L) x) (d2 : ∀ x ∈ Icc 0 L, HasDerivWithinAt v1 (v2 x) (Icc 0 L) x)
    (b : ∀ x ∈ Icc 0 L, |v2 x| ≤ M) (hE : 0 ≤ E) (he : ∀ (j : ℕ) (y : ℝ), ys[j]? = some y → |j * h - x| ≤ 2 * h → |y - v (j * h)| ≤ E) :
    ∃ y, Interp.interpolate kd (vec J fun j => (j : ℝ) * h) ys x = .ok y ∧
      |y - v x| ≤ (match kd with | .linear => E + M * h ^ 2 / 8 | .quadratic => 5 / 4 * E + M * h ^ 2 / 2) := by
  have hg : ∀ {j : ℕ} {a : ℝ}, (vec J fun j => (j : ℝ) * h)[j]? = some a → a = j * h ∧ j < J := by
    intro j a e
    have hj : j < J := by
      by_contra hc
      rw [List.getElem?_eq_none (by simp; omega)] at e
      cases e
    rw [vec_getElem? _ hj] at e
    exact ⟨(Option.some.inj e).symm, hj⟩
  have hn : Nodes (vec J fun j => (j : ℝ) * h) ys := by
    refine ⟨fun e => ?_, fun i j a c hij ha hc => ?_, by simpa using hl⟩
    · have := congrArg List.length e
      simp at this
      omega
    · rw [(hg ha).1, (hg hc).1]
      have : (i : ℝ) < j := by exact_mod_cast hij
      exact mul_lt_mul_of_pos_right this hh
  have hM : 0 ≤ M := (abs_nonneg _).trans (b x hx)
  have hMh : 0 ≤ M * h ^ 2 := by positivity
  have lenJ : (vec J fun j => (j : ℝ) * h).length = J := by simp
  have first : ∀ {x₀ y₀}, NodeAt (vec J fun j => (j : ℝ) * h) ys 0 x₀ y₀ → x ≤ x₀ → |y₀ - v x| ≤ E := by
    intro x₀ y₀ n hle
    have e := (hg n.1).1
    have e' := he _ _ n.2
    rw [Nat.cast_zero, zero_mul] at e e'
    have x0 := le_antisymm (e ▸ hle) hx.1
    rw [x0] at e' ⊢
    exact e' (by simp; linarith)
  have last : ∀ {x₀ y₀}, NodeAt (vec J fun j => (j : ℝ) * h) ys ((vec J fun j => (j : ℝ) * h).length - 1) x₀ y₀ → x₀ ≤ x → |y₀ - v x| ≤ E := by
    intro x₀ y₀ n hle
    rw [lenJ] at n
    have e := (hg n.1).1
    have e' := he _ _ n.2
    rw [hL] at e e'
    have x0 := le_antisymm hx.2 (e ▸ hle)
    rw [x0] at e' ⊢
    exact e' (by simp; linarith)
  have seg : ∀ {k : ℕ} {x₁ y₁ x₂ y₂ : ℝ}, NodeAt (vec J fun j => (j : ℝ) * h) ys k x₁ y₁ → NodeAt (vec J fun j => (j : ℝ) * h) ys (k + 1) x₂ y₂ →
      x₁ ≤ x → x ≤ x₂ → |Interp.line x₁ y₁ x₂ y₂ x - v x| ≤ E + M * h ^ 2 / 8 := by
    intro k x₁ y₁ x₂ y₂ n1 n2 h1 h2
    obtain ⟨e1, -⟩ := hg n1.1
    obtain ⟨e2, l2⟩ := hg n2.1
    have e3 : ((k + 1 : ℕ) : ℝ) * h = k * h + h := by push_cast; ring
    have g1 := he _ _ n1.2 (abs_le.mpr ⟨by linarith, by linarith⟩)
    have g2 := he _ _ n2.2 (abs_le.mpr ⟨by linarith, by linarith⟩)
    have hle : ((k + 1 : ℕ) : ℝ) * h ≤ L := by
      rw [← hL]
      have : ((k + 1 : ℕ) : ℝ) ≤ ((J - 1 : ℕ) : ℝ) := by exact_mod_cast (by omega : k + 1 ≤ J - 1)
      exact mul_le_mul_of_nonneg_right this hh.le
    rw [e3] at e2 g2 hle
    subst e1 e2
    exact line_error (by positivity) hle hh h1 h2 d1 d2 b g1 g2
  cases kd with
  | linear =>
    obtain ⟨x₀, y₀, n, hx', e⟩ | ⟨x₀, y₀, n, hx', e⟩ | ⟨k, a, c, a', c', n, n', ha, ha', e⟩ := Interp.linear_ok hn x
    · exact ⟨_, e, by dsimp only; have := first n hx'; linarith⟩
    · exact ⟨_, e, by dsimp only; have := last n hx'; linarith⟩
    · exact ⟨_, e, seg n n' ha ha'.le⟩
  | quadratic =>
    obtain ⟨x₀, y₀, n, hx', e⟩ | ⟨x₀, y₀, n, hx', e⟩ | ⟨k, a, c, a', c', n, n', ha, ha', -, e⟩ |
      ⟨k, a, c, a', c', a'', c'', n, n', n'', ha, ha', -, e⟩ := Interp.quadratic_ok hn (by rw [lenJ]; unfold UINT_MOD; omega) x
    · exact ⟨_, e, by dsimp only; have := first n hx'; linarith⟩
    · exact ⟨_, e, by dsimp only; have := last n hx'; linarith⟩
    · exact ⟨_, e, by dsimp only; have := seg n n' ha ha'; linarith⟩
    · refine ⟨_, e, ?_⟩
      obtain ⟨e1, -⟩ := hg n.1
      obtain ⟨e2, -⟩ := hg n'.1
      obtain ⟨e3, l3⟩ := hg n''.1
      have i1 : (k : ℝ) * h = ((k + 1 : ℕ) : ℝ) * h - h := by push_cast; ring
      have i3 : ((k + 2 : ℕ) : ℝ) * h = ((k + 1 : ℕ) : ℝ) * h + h := by push_cast; ring
      have g1 := he _ _ n.2 (abs_le.mpr ⟨by linarith, by linarith⟩)
      have g2 := he _ _ n'.2 (abs_le.mpr ⟨by linarith, by linarith⟩)
      have g3 := he _ _ n''.2 (abs_le.mpr ⟨by linarith, by linarith⟩)
      have hle : ((k + 2 : ℕ) : ℝ) * h ≤ L := by
        rw [← hL]
        have : ((k + 2 : ℕ) : ℝ) ≤ ((J - 1 : ℕ) : ℝ) := by exact_mod_cast (by omega : k + 2 ≤ J - 1)
        exact mul_le_mul_of_nonneg_right this hh.le
      rw [i1] at e1 g1
      rw [i3] at e3 g3 hle
      have hge : h ≤ ((k + 1 : ℕ) : ℝ) * h := by push_cast; nlinarith [mul_nonneg (Nat.cast_nonneg (α := ℝ) k) hh.le]
      subst e1 e2 e3
      exact parabola_error hge hle hh ha ha' d1 d2 b g1 g2 g3

/-- Both interpolations of approximate values on the grid. -/
theorem interpolate_error (kd : Interp.Kind) {v v1 v2 : ℝ → ℝ} {L h x M E : ℝ} {J : ℕ} {ys : List ℝ} (hJ : 2 ≤ J) (hm : J ≤ 2 ^ 31)
    (hh : 0 < h) (hL : ((J - 1 : ℕ) : ℝ) * h = L) (hx : x ∈ Icc 0 L) (hl : ys.length = J)
    (d1 : ∀ x ∈ Icc 0 L, HasDerivWithinAt v (v1 x) (Icc 0 L) x) (d2 : ∀ x ∈ Icc 0 L, HasDerivWithinAt v1 (v2 x) (Icc 0 L) x)
    (b : ∀ x ∈ Icc 0 L, |v2 x| ≤ M) (he : ∀ (j : ℕ) (y : ℝ), ys[j]? = some y → |y - v (j * h)| ≤ E) :
    ∃ y, Interp.interpolate kd (vec J fun j => (j : ℝ) * h) ys x = .ok y ∧
      |y - v x| ≤ (match kd with | .linear => E + M * h ^ 2 / 8 | .quadratic => 5 / 4 * E + M * h ^ 2 / 2) :=
  interpolate_local kd hJ hm hh hL hx hl d1 d2 b ((abs_nonneg _).trans (he 0 _ (List.getElem?_eq_getElem (by omega)))) fun j y h _ => he j y h

/-- The price read off after the time loop. -/
theorem price_returns {sc : Scheme ℝ} {p : Pde ℝ} {q : Problem} (hp : Describes p q) {xDom tDom : ℝ} {J N : ℕ} {junk : ℕ → ℝ} {s : Fdm ℝ} (hJ : 2 ≤ J)
    (hN : 2 ≤ N) (hT : 0 < tDom) (hs : construct sc xDom J tDom N p junk = .ok s) {fuel : ℕ} (hf : N ≤ fuel) {v : List ℝ}
    (hv : (solve sc p fuel s).1 = .ok v) (k : Interp.Kind) (S : ℝ) :
    (calculatePrice sc k p (.ok S) fuel s).1 = Interp.interpolate k (vec J fun j => (j : ℝ) * (xDom / (J - 1))) v S := by
  rcases hx : solve sc p fuel s with ⟨r, s'⟩
  rw [hx] at hv
  dsimp only at hv
  subst hv
  obtain ⟨st, h0, hst, -, -, e1, e2⟩ := C53_steps sc p xDom tDom J N junk s hJ hN hT hs fuel hf v s' hx
  have hlev : ∀ n ≤ N - 1, Levels xDom tDom J N (st n) := by
    intro n
    induction n with
    | zero => intro _; rw [h0]; exact (levels_construct hp hs hJ hN).1
    | succ n ih => intro hn; exact (levels_step (ih (by omega)) (hst n (by omega))).1
  have hL := hlev (N - 1) le_rfl
  have hsol : s.solved = false := by
    obtain ⟨old, -, -, e⟩ := construct_ok hs hJ hN
    rw [e]
  rw [calculatePrice_fresh sc k p (.ok S) hsol hx, e2, Res.bind_ok]
  dsimp only
  rw [← e1, hL.grid.xs, hL.nodes, hL.dx]

theorem map_range_getElem? {f : ℕ → ℝ} {J j : ℕ} {y : ℝ} (h : ((List.range J).map f)[j]? = some y) : j < J ∧ y = f j := by
  rw [List.getElem?_map] at h
  have hj : j < J := by
    by_contra hc
    rw [List.getElem?_eq_none (by simp; omega)] at h
    cases h
  rw [List.getElem?_range hj] at h
  exact ⟨hj, (Option.some.inj h).symm⟩

/-- The last level is at time `tDom`. -/
theorem last_time {tDom : ℝ} {N : ℕ} (hN : 2 ≤ N) : ((N - 1 : ℕ) : ℝ) * (tDom / (N - 1)) = tDom := last_node hN

end Fdm

/-- **C67.** Implicit Euler with the Thomas algorithm converges, for every grid and step size: if the problem has a
smooth solution `u`, the diffusion dominates the convection on the grid and the reaction is not positive, then
`solve()` returns, and every value returned differs from the solution at its node at time `tDom` by at most
`tDom (|u_tt| dt / 2 + (|D| |u_xxxx| / 12 + |C| |u_xxx| / 6) dx²)`. -/
theorem C67_implicit (p : Pde ℝ) (q : Problem) (hp : Describes p q) (xDom tDom : ℝ) (J N : ℕ) (junk : ℕ → ℝ) (hJ : 4 ≤ J)
    (hm : J ≤ 2 ^ 31) (hN : 2 ≤ N) (hX : 0 < xDom) (hT : 0 < tDom) (hq : DiffusionDominates q J (xDom / (J - 1)))
    (u : ℝ → ℝ → ℝ) (S : SmoothSolution q xDom tDom u) (Dm Cm M2 M3 M4 : ℝ) (hB : Bounded S Dm Cm M2 M3 M4) :
    ∃ s, construct (.implicit thomas) xDom J tDom N p junk = .ok s ∧ ∀ fuel, N ≤ fuel → ∃ v,
      (solve (.implicit thomas) p fuel s).1 = .ok v ∧ v.length = J ∧ ∀ (j : ℕ) (y : ℝ), v[j]? = some y →
      |y - u tDom (j * (xDom / (J - 1)))| ≤
        tDom * (M2 / 2 * (tDom / (N - 1)) + (Dm * M4 / 12 + Cm * M3 / 6) * (xDom / (J - 1)) ^ 2) := by
  obtain ⟨s, hs, h⟩ := C55_thomas p q hp xDom tDom J N junk hJ hm hN hX hT hq
  refine ⟨s, hs, fun fuel hf => ?_⟩
  obtain ⟨U, hu, h0, hn⟩ := h fuel hf
  refine ⟨_, hu, by simp, fun j y hy => ?_⟩
  obtain ⟨hj, rfl⟩ := map_range_getElem? hy
  have := implicit_error hB (by omega) hN hX hT hq h0 hn (N - 1) le_rfl j hj
  rwa [last_time hN] at this

/-- **C67.** The same for implicit Euler with any sound linear solver, whenever `solve()` returns. -/
theorem C67_anySolver (solver : MatrixSolver ℝ) (hsolver : SoundSolver solver) (p : Pde ℝ) (q : Problem) (hp : Describes p q)
    (xDom tDom : ℝ) (J N : ℕ) (junk : ℕ → ℝ) (hJ : 2 ≤ J) (hN : 2 ≤ N) (hX : 0 < xDom) (hT : 0 < tDom)
    (hq : DiffusionDominates q J (xDom / (J - 1))) (u : ℝ → ℝ → ℝ) (S : SmoothSolution q xDom tDom u) (Dm Cm M2 M3 M4 : ℝ)
    (hB : Bounded S Dm Cm M2 M3 M4) (s : Fdm ℝ) (hs : construct (.implicit solver) xDom J tDom N p junk = .ok s) (fuel : ℕ) (hf : N ≤ fuel)
    (v : List ℝ) (hv : (solve (.implicit solver) p fuel s).1 = .ok v) : ∀ (j : ℕ) (y : ℝ), v[j]? = some y →
      |y - u tDom (j * (xDom / (J - 1)))| ≤
        tDom * (M2 / 2 * (tDom / (N - 1)) + (Dm * M4 / 12 + Cm * M3 / 6) * (xDom / (J - 1)) ^ 2) := by
  obtain ⟨U, rfl, h0, hn⟩ := C55_scheme solver hsolver p q hp xDom tDom J N junk hJ hN hX hT s hs fuel hf v hv
  intro j y hy
  obtain ⟨hj, rfl⟩ := map_range_getElem? hy
  have := implicit_error hB (by omega) hN hX hT hq h0 hn (N - 1) le_rfl j hj
  rwa [last_time hN] at this

/-- **C67.** Explicit Euler, if its weights are not negative on the grid.  The boundary values at the wrong time
(`C54_fails`) cost at most `|u_t| dt` more. -/
theorem C67_explicit (p : Pde ℝ) (q : Problem) (hp : Describes p q) (xDom tDom : ℝ) (J N : ℕ) (junk : ℕ → ℝ) (hJ : 2 ≤ J)
    (hN : 2 ≤ N) (hX : 0 < xDom) (hT : 0 < tDom) (hq : DiffusionDominates q J (xDom / (J - 1)))
    (hw : ∀ t j, 1 ≤ j → j + 1 < J →
      0 ≤ 1 - tDom / (N - 1) * (2 * q.D t (j * (xDom / (J - 1))) / (xDom / (J - 1)) ^ 2 - q.R t (j * (xDom / (J - 1)))))
    (u : ℝ → ℝ → ℝ) (S : SmoothSolution q xDom tDom u) (Dm Cm M2 M3 M4 : ℝ) (hB : Bounded S Dm Cm M2 M3 M4)
    (hl : u 0 0 = q.left 0 0) (hr : u 0 xDom = q.right 0 xDom) (M1 : ℝ) (b0 : ∀ t ∈ Set.Icc 0 tDom, |S.ut t 0| ≤ M1)
    (b1 : ∀ t ∈ Set.Icc 0 tDom, |S.ut t xDom| ≤ M1) :
    ∃ s, construct .explicit xDom J tDom N p junk = .ok s ∧ ∀ fuel, N ≤ fuel → ∃ v,
      (solve .explicit p fuel s).1 = .ok v ∧ v.length = J ∧ ∀ (j : ℕ) (y : ℝ), v[j]? = some y →
      |y - u tDom (j * (xDom / (J - 1)))| ≤ M1 * (tDom / (N - 1)) +
        tDom * (M2 / 2 * (tDom / (N - 1)) + (Dm * M4 / 12 + Cm * M3 / 6) * (xDom / (J - 1)) ^ 2) := by
  obtain ⟨s, hs, h⟩ := C54_partial p q hp xDom tDom J N junk hJ hN hX hT
  refine ⟨s, hs, fun fuel hf => ?_⟩
  obtain ⟨U, hu, h0, hn⟩ := h fuel hf
  refine ⟨_, hu, by simp, fun j y hy => ?_⟩
  obtain ⟨hj, rfl⟩ := map_range_getElem? hy
  have := explicit_error hB (by omega) hN hX hT hq hw hl hr b0 b1 h0 hn (N - 1) le_rfl j hj
  rwa [last_time hN] at this

/-- **C67.** From the nodes to the price, for every scheme: if `solve()` returns values within `E` of the solution at
the nodes, then `calculatePrice()` of the new solver returns, for every price `x` of the stock between 0 and `xDom`, a value within
`E + |u_xx| dx² / 8` of the solution with linear interpolation, and `5/4 E + |u_xx| dx² / 2` with quadratic. -/
theorem C67_price (sc : Scheme ℝ) (p : Pde ℝ) (q : Problem) (hp : Describes p q) (xDom tDom : ℝ) (J N : ℕ) (junk : ℕ → ℝ) (hJ : 2 ≤ J)
    (hm : J ≤ 2 ^ 31) (hN : 2 ≤ N) (hX : 0 < xDom) (hT : 0 < tDom) (u : ℝ → ℝ → ℝ) (S : SmoothSolution q xDom tDom u) (M E : ℝ)
    (hM : ∀ x ∈ Set.Icc 0 xDom, |S.uxx tDom x| ≤ M) (s : Fdm ℝ) (hs : construct sc xDom J tDom N p junk = .ok s) (fuel : ℕ) (hf : N ≤ fuel)
    (v : List ℝ) (hv : (solve sc p fuel s).1 = .ok v) (hl : v.length = J)
    (hE : ∀ (j : ℕ) (y : ℝ), v[j]? = some y → |y - u tDom (j * (xDom / (J - 1)))| ≤ E) (x : ℝ) (hx : x ∈ Set.Icc 0 xDom) :
    (∃ y, (calculatePrice sc .linear p (.ok x) fuel s).1 = .ok y ∧ |y - u tDom x| ≤ E + M * (xDom / (J - 1)) ^ 2 / 8) ∧
    ∃ y, (calculatePrice sc .quadratic p (.ok x) fuel s).1 = .ok y ∧ |y - u tDom x| ≤ 5 / 4 * E + M * (xDom / (J - 1)) ^ 2 / 2 := by
  have hJ1 : (0 : ℝ) < J - 1 := by
    have : (2 : ℝ) ≤ J := by exact_mod_cast hJ
    linarith
  have ht : tDom ∈ Set.Icc 0 tDom := ⟨hT.le, le_rfl⟩
  rw [price_returns hp hJ hN hT hs hf hv, price_returns hp hJ hN hT hs hf hv]
  exact ⟨interpolate_error .linear hJ hm (div_pos hX hJ1) (last_node hJ) hx hl (S.hasX _ ht) (S.hasXX _ ht) hM hE,
    interpolate_error .quadratic hJ hm (div_pos hX hJ1) (last_node hJ) hx hl (S.hasX _ ht) (S.hasXX _ ht) hM hE⟩

/-! ### A case: the heat equation on `[0, π]` with `u = exp(-t) sin x` -/

/-- The heat equation, as a user would subclass `ParabolicPDE`. -/
noncomputable def heat : Pde ℝ where
  diffusion _ _ := .ok 1
  convection _ _ := .ok 0
  reaction _ _ := .ok 0
  rightHandSide _ _ := .ok 0
  boundaryLeft _ _ := .ok 0
  boundaryRight _ _ := .ok 0
  initialCondition x := .ok (Real.sin x)

/-- The same as a problem. -/
noncomputable def heatProblem : Problem where
  D _ _ := 1
  C _ _ := 0
  R _ _ := 0
  f _ _ := 0
  left _ _ := 0
  right _ _ := 0
  initial := Real.sin

theorem heat_describes : Describes heat heatProblem := ⟨fun _ _ => rfl, fun _ _ => rfl, fun _ _ => rfl, fun _ _ => rfl,
  fun _ _ => rfl, fun _ _ => rfl, fun _ => rfl⟩

theorem heat_dominates (J : ℕ) {h : ℝ} : DiffusionDominates heatProblem J h := fun t j _ _ => by simp [heatProblem]

/-- Its solution. -/
noncomputable def heatSolution (T : ℝ) : SmoothSolution heatProblem Real.pi T fun t x => Real.exp (-t) * Real.sin x where
  ut t x := -(Real.exp (-t) * Real.sin x)
  utt t x := Real.exp (-t) * Real.sin x
  ux t x := Real.exp (-t) * Real.cos x
  uxx t x := -(Real.exp (-t) * Real.sin x)
  uxxx t x := -(Real.exp (-t) * Real.cos x)
  uxxxx t x := Real.exp (-t) * Real.sin x
  hasT t _ x _ := (((hasDerivAt_neg t).exp.mul_const (Real.sin x)).congr_deriv (by ring)).hasDerivWithinAt
  hasTT t _ x _ := (((hasDerivAt_neg t).exp.mul_const (Real.sin x)).neg.congr_deriv (by ring)).hasDerivWithinAt
  hasX t _ x _ := ((Real.hasDerivAt_sin x).const_mul (Real.exp (-t))).hasDerivWithinAt
  hasXX t _ x _ := (((Real.hasDerivAt_cos x).const_mul (Real.exp (-t))).congr_deriv (by ring)).hasDerivWithinAt
  hasXXX t _ x _ := ((Real.hasDerivAt_sin x).const_mul (Real.exp (-t))).neg.hasDerivWithinAt
  hasXXXX t _ x _ := (((Real.hasDerivAt_cos x).const_mul (Real.exp (-t))).neg.congr_deriv (by ring)).hasDerivWithinAt
  equation t _ x _ := by simp [heatProblem]
  initial x _ := by simp [heatProblem]
  left t _ := by simp [heatProblem]
  right t _ := by simp [heatProblem]

theorem heat_abs {t c : ℝ} (ht : 0 ≤ t) (hc : |c| ≤ 1) : |Real.exp (-t) * c| ≤ 1 := by
  rw [abs_mul, abs_of_pos (Real.exp_pos _)]
  calc _ ≤ 1 * 1 := mul_le_mul (Real.exp_le_one_iff.mpr (by linarith)) hc (abs_nonneg _) zero_le_one
    _ = 1 := one_mul 1

theorem heat_bounded (T : ℝ) : Bounded (heatSolution T) 1 0 1 1 1 where
  D _ _ _ _ := by simp [heatProblem]
  C _ _ _ _ := by simp [heatProblem]
  tt _ ht x _ := heat_abs ht.1 (Real.abs_sin_le_one x)
  xxx _ ht x _ := by
    change |-(_ * _)| ≤ _
    rw [abs_neg]
    exact heat_abs ht.1 (Real.abs_cos_le_one x)
  xxxx _ ht x _ := heat_abs ht.1 (Real.abs_sin_le_one x)

/-- With 1000 time points and 1000 nodes implicit Euler solves the heat equation to three digits, and so
is the price at any point. -/
example : ∃ s, construct (.implicit thomas) Real.pi 1000 1 1000 heat (fun _ => 0) = .ok s ∧ ∃ v,
    (solve (.implicit thomas) heat 1000 s).1 = .ok v ∧
    (∀ (j : ℕ) (y : ℝ), v[j]? = some y → |y - Real.exp (-1) * Real.sin (j * (Real.pi / ((1000 : ℕ) - 1)))| ≤ 0.00051) ∧
    ∀ x ∈ Set.Icc 0 Real.pi, ∃ y, (calculatePrice (.implicit thomas) .quadratic heat (.ok x) 1000 s).1 = .ok y ∧
      |y - Real.exp (-1) * Real.sin x| ≤ 0.001 := by
  obtain ⟨s, hs, h⟩ := C67_implicit heat heatProblem heat_describes Real.pi 1 1000 1000 (fun _ => 0) (by norm_num) (by norm_num) (by norm_num)
    Real.pi_pos one_pos (heat_dominates _) _ (heatSolution 1) 1 0 1 1 1 (heat_bounded 1)
  obtain ⟨v, hv, hl, he⟩ := h 1000 le_rfl
  have hpi : (Real.pi / ((1000 : ℕ) - 1)) ^ 2 ≤ 0.00002 := by
    have h1 : Real.pi / ((1000 : ℕ) - 1) ≤ 0.004 := by
      norm_num
      linarith [Real.pi_lt_d2]
    have h0 : 0 ≤ Real.pi / ((1000 : ℕ) - 1) := by
      norm_num
      positivity
    nlinarith
  have he' : ∀ (j : ℕ) (y : ℝ), v[j]? = some y → |y - Real.exp (-1) * Real.sin (j * (Real.pi / ((1000 : ℕ) - 1)))| ≤ 0.00051 := by
    intro j y hy
    refine (he j y hy).trans ?_
    norm_num at hpi ⊢
    linarith
  refine ⟨s, hs, v, hv, he', fun x hx => ?_⟩
  obtain ⟨y, hy, hb⟩ := (C67_price (.implicit thomas) heat heatProblem heat_describes Real.pi 1 1000 1000 (fun _ => 0) (by norm_num) (by norm_num)
    (by norm_num) Real.pi_pos one_pos _ (heatSolution 1) 1 0.00051 (fun x _ => by
      change |-(_ * _)| ≤ _
      rw [abs_neg]
      exact heat_abs zero_le_one (Real.abs_sin_le_one x)) s hs 1000 le_rfl v hv hl he' x hx).2
  refine ⟨y, hy, hb.trans ?_⟩
  norm_num at hpi ⊢
  linarith

/-- The hypotheses on the solver hold. -/
example : ∃ s v, construct (.implicit checkedThomas) Real.pi 5 1 3 heat (fun _ => 0) = .ok s ∧
    (solve (.implicit checkedThomas) heat 3 s).1 = .ok v ∧ ∀ (j : ℕ) (y : ℝ), v[j]? = some y →
      |y - Real.exp (-1) * Real.sin (j * (Real.pi / ((5 : ℕ) - 1)))| ≤ 1 / 4 + 1 / 12 * (Real.pi / 4) ^ 2 := by
  obtain ⟨s, hs⟩ := construct_returns (xDom := Real.pi) (tDom := 1) (N := 3) (J := 5) heat_describes (fun _ => 0) (by norm_num) (by decide)
    (.implicit checkedThomas)
  obtain ⟨v, s', hv⟩ := implicit_returns heat_describes (fuel := 3) (by norm_num) (by norm_num) Real.pi_pos one_pos (heat_dominates _) hs le_rfl
    fun A b hA hd hr hb => checkedThomas_returns (by norm_num) (by decide) hA hd hr hb
  have := C67_anySolver _ checkedThomas_sound heat heatProblem heat_describes Real.pi 1 5 3 _ (by norm_num) (by norm_num) Real.pi_pos one_pos
    (heat_dominates _) _ (heatSolution 1) 1 0 1 1 1 (heat_bounded 1) s hs 3 le_rfl v (by rw [hv])
  refine ⟨s, v, hs, by rw [hv], fun j y hy => (this j y hy).trans (le_of_eq ?_)⟩
  norm_num

/-- Explicit Euler on a grid for which the weights are not negative. -/
example : ∃ s, construct .explicit Real.pi 4 1 3 heat (fun _ => 0) = .ok s ∧ ∃ v, (solve .explicit heat 3 s).1 = .ok v ∧
    ∀ (j : ℕ) (y : ℝ), v[j]? = some y →
      |y - Real.exp (-1) * Real.sin (j * (Real.pi / ((4 : ℕ) - 1)))| ≤ 1 / 4 + 1 / 12 * (Real.pi / 3) ^ 2 := by
  obtain ⟨s, hs, h⟩ := C67_explicit heat heatProblem heat_describes Real.pi 1 4 3 (fun _ => 0) (by norm_num) (by norm_num) Real.pi_pos one_pos
    (heat_dominates _) (by
      intro t j _ _
      have h3 := Real.pi_gt_three
      have : 1 ≤ (Real.pi / ((4 : ℕ) - 1)) ^ 2 := by
        have : 1 ≤ Real.pi / ((4 : ℕ) - 1) := by
          norm_num
          linarith
        nlinarith
      simp only [heatProblem]
      have : 2 * 1 / (Real.pi / ((4 : ℕ) - 1)) ^ 2 ≤ 2 := by
        rw [div_le_iff₀ (by positivity)]
        linarith
      norm_num at this ⊢
      linarith) _ (heatSolution 1) 1 0 1 1 1 (heat_bounded 1) (by simp [heatProblem]) (by simp [heatProblem]) 0
    (fun t _ => by simp [heatSolution]) (fun t _ => by simp [heatSolution])
  obtain ⟨v, hv, -, he⟩ := h 3 le_rfl
  refine ⟨s, hs, v, hv, fun j y hy => (he j y hy).trans (le_of_eq ?_)⟩
  norm_num

end Verif
