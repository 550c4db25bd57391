import Verif.Lemmas.FdmRoundingPrice
import Verif.Props.ThomasDouble

/-!
# Rounding errors of implicit Euler with the Thomas algorithm in binary64
-/

set_option exponentiation.threshold 3000

namespace Verif
open Spec

namespace Fdm

/-! ## The tridiagonal system for any kind of numbers -/

section
variable {F : Type} [Fl F] [Add F] [Sub F] [Mul F] [Div F] [Neg F]

theorem filter_rows' {T : ℕ → List (ℕ × ℕ × F)} (hT : ∀ i, ∀ t ∈ T i, t.1 = i) (i k : ℕ) : ∀ m,
    ((vec m T).flatten.filter fun t => t.1 == i && t.2.1 == k) =
      if i < m then (T i).filter fun t => t.2.1 == k else []
  | 0 => by simp [vec]
  | m + 1 => by
    have ih := filter_rows' hT i k m
    have e : vec (m + 1) T = vec m T ++ [T m] := by simp [vec, List.range_succ]
    rw [e, List.flatten_append, List.filter_append, ih]
    simp only [List.flatten_cons, List.flatten_nil, List.append_nil]
    by_cases h : m = i
    · subst h
      rw [if_neg (lt_irrefl _), if_pos (Nat.lt_succ_self _), List.nil_append]
      apply List.filter_congr
      intro t ht
      simp [hT _ t ht]
    · have h0 : (T m).filter (fun t => t.1 == i && t.2.1 == k) = [] := by
        rw [List.filter_eq_nil_iff]
        intro t ht
        simp [hT m t ht, h]
      rw [h0, List.append_nil]
      by_cases h' : i < m
      · rw [if_pos h', if_pos (by omega)]
      · rw [if_neg h', if_neg (by omega)]

/-- The triplets of row `i` of the system. -/
abbrev rowOf (J : ℕ) (al be ga : ℕ → F) (i : ℕ) : List (ℕ × ℕ × F) := triplets J (i + 1) (al i) (be i) (ga i)

/-- The matrix made of the triplets of the first `m` rows. -/
abbrev partMat (J m : ℕ) (al be ga : ℕ → F) : Mat F := ⟨J - 2, J - 2, Mat.tripletValue (vec m (rowOf J al be ga)).flatten⟩

theorem partMat_coeff {J m : ℕ} (al be ga : ℕ → F) {i k : ℕ} (hk : k < J - 2) (hm : m ≤ J - 2) :
    (partMat J m al be ga).coeff i k =
      if i < m then (if k + 1 = i then al i else if k = i then be i else if k = i + 1 then ga i else lit 0) else lit 0 := by
  unfold partMat Mat.tripletValue
  dsimp only
  rw [filter_rows']
  · by_cases him : i < m
    · rw [if_pos him, if_pos him]
      unfold rowOf triplets
      by_cases h1 : k + 1 = i
      · rw [if_pos h1, if_pos (show i + 1 > 1 by omega)]
        have a1 : i - 1 = k := by omega
        have a2 : ¬ i = k := by omega
        have a3 : ¬ i + 1 = k := by omega
        split_ifs <;> simp [List.filter_cons, a1, a2, a3]
      · rw [if_neg h1]
        have b1 : ∀ x : F, (if i + 1 > 1 then [(i + 1 - 1, i + 1 - 2, x)] else []).filter (fun t => t.2.1 == k) = [] := by
          intro x
          split_ifs with h
          · have : ¬ i - 1 = k := by omega
            simp [List.filter_cons, this]
          · rfl
        rw [List.filter_append, List.filter_append, b1, List.nil_append]
        by_cases h2 : k = i
        · subst h2
          rw [if_pos rfl]
          split_ifs <;> simp [List.filter_cons]
        · rw [if_neg h2]
          have a2 : ¬ i = k := by omega
          by_cases h3 : k = i + 1
          · subst h3
            rw [if_pos rfl, if_pos (show i + 1 < J - 2 by omega)]
            simp [List.filter_cons]
          · rw [if_neg h3]
            have a3 : ¬ i + 1 = k := by omega
            split_ifs <;> simp [List.filter_cons, a2, a3]
    · rw [if_neg him, if_neg him]
      simp
  · intro i t ht
    unfold rowOf triplets at ht
    split_ifs at ht <;> simp at ht <;> rcases ht with rfl | rfl | rfl <;> rfl

theorem ofTriplets_part {J m : ℕ} (al be ga : ℕ → F) (hm : m ≤ J - 2) :
    Mat.ofTriplets (J - 2) (J - 2) (vec m (rowOf J al be ga)).flatten = .ok (partMat J m al be ga) := by
  unfold Mat.ofTriplets
  rw [if_pos]
  rw [List.all_eq_true]
  intro t ht
  simp only [vec, List.mem_flatten, List.mem_map, List.mem_range] at ht
  obtain ⟨l, ⟨i, hi, rfl⟩, ht⟩ := ht
  unfold rowOf triplets at ht
  simp only [Bool.and_eq_true, decide_eq_true_eq]
  split_ifs at ht <;> simp at ht <;> rcases ht with rfl | rfl | rfl <;> refine ⟨?_, ?_⟩ <;> dsimp only <;> omega

theorem copySolution_any {s : Fdm F} (hJ : 2 ≤ s.J) {sol : List F} (hl : sol.length = s.J - 2) {g : ℕ → F} (hg : s.newPrices = vec s.J g) :
    copySolution sol s = (.ok (), { s with newPrices := (vec s.J
      fun k => if 1 ≤ k ∧ k + 1 < s.J then sol.getD (k - 1) (lit 0) else g k) }) := by
  unfold copySolution
  rw [Eff.withState_apply, ulpred_pos (by omega)]
  have h := forJ_store (val := fun j _ => vget sol (j - 1)) (w := fun k => sol.getD (k - 1) (lit 0)) (N := s.J) s (s.J - 1 - 1) 1 g
    (by omega) (by
      intro j h1 h2 v _
      have : j - 1 < sol.length := by omega
      simp [vget, List.getD, this])
  rw [← hg] at h
  rw [h]
  refine congrArg (fun v => (Res.ok (), { s with newPrices := v })) (vec_congr ?_)
  intro k _
  by_cases hk : 1 ≤ k ∧ k + 1 < s.J
  · rw [if_pos (by omega), if_pos hk]
  · rw [if_neg (by omega), if_neg hk]

/-- One step of implicit Euler when nothing throws. -/
theorem step_implicit {solver : MatrixSolver F} {p : Pde F} {s : Fdm F} {xs al be ga b : ℕ → F} {l r : F} {sol : List F} (hJ : 2 ≤ s.J) (hx : s.xValues = vec s.J xs)
    (hn : s.newPrices.length = s.J) (hl : p.boundaryLeft (s.tPrev + s.dt) (xs 0) = .ok l) (hr : p.boundaryRight (s.tPrev + s.dt) (xs (s.J - 1)) = .ok r)
    (hrow : ∀ i < s.J - 2, ∀ g : ℕ → F, g 0 = l → g (s.J - 1) = r →
      implicitRow p { s with tCurr := s.tPrev + s.dt, newPrices := vec s.J g } (i + 1) = .ok (rowOf s.J al be ga i, b i))
    (hsol : solver (partMat s.J (s.J - 2) al be ga) (vec (s.J - 2) b) = .ok sol) (hlen : sol.length = s.J - 2) :
    step (.implicit solver) p s = (.ok (), { s with
      tCurr := s.tPrev + s.dt, tPrev := s.tPrev + s.dt,
      newPrices := vec s.J fun j => if 1 ≤ j ∧ j + 1 < s.J then sol.getD (j - 1) (lit 0) else if j = s.J - 1 then r else l,
      oldPrices := vec s.J fun j => if 1 ≤ j ∧ j + 1 < s.J then sol.getD (j - 1) (lit 0) else if j = s.J - 1 then r else l }) := by
  have en := eq_vec (lit 0 : F) s.newPrices
  rw [hn] at en
  have hm : march (.implicit solver) p { s with tCurr := s.tPrev + s.dt } = (.ok (), { s with
      tCurr := s.tPrev + s.dt, newPrices := vec s.J fun j => if 1 ≤ j ∧ j + 1 < s.J then sol.getD (j - 1) (lit 0) else if j = s.J - 1 then r else l }) := by
    unfold march
    dsimp only
    rw [Eff.bind_of_ok (boundary_ok (p := p) (time := (·.tCurr)) (s := { s with tCurr := s.tPrev + s.dt }) hJ en hx (fun _ => rfl) hl hr)]
    set g : ℕ → F := fun k => if k = s.J - 1 then r else if k = 0 then l else s.newPrices.getD k (lit 0) with hg
    have g0 : g 0 = l := by rw [hg]; dsimp only; rw [if_neg (by omega), if_pos rfl]
    have gJ : g (s.J - 1) = r := by rw [hg]; dsimp only; rw [if_pos rfl]
    have hsys : implicitSystem solver p { s with tCurr := s.tPrev + s.dt, newPrices := vec s.J g } = .ok sol := by
      unfold implicitSystem
      dsimp only
      rw [ulpred_pos (by omega), Nat.sub_sub]
      have := each_vec (f := implicitRow p { s with tCurr := s.tPrev + s.dt, newPrices := vec s.J g }) (g := fun i => i + 1) (n := s.J - 2)
        (fun i hi => hrow i hi g g0 gJ)
      unfold vec at this
      unfold vec
      rw [this, Res.bind_ok, List.map_map, List.map_map]
      exact (congrArg (· >>= fun A => solver A _) (ofTriplets_part (J := s.J) (m := s.J - 2) al be ga le_rfl)).trans hsol
    have hread : Eff.read (implicitSystem solver p) { s with tCurr := s.tPrev + s.dt, newPrices := vec s.J g } =
        (.ok sol, { s with tCurr := s.tPrev + s.dt, newPrices := vec s.J g }) := by
      rw [Eff.read_apply, hsys]
    unfold innerImplicit
    rw [Eff.bind_of_ok hread, copySolution_any (s := { s with tCurr := s.tPrev + s.dt, newPrices := vec s.J g }) hJ hlen rfl]
    refine congrArg (fun v => (Res.ok (), { s with tCurr := s.tPrev + s.dt, newPrices := v })) (vec_congr fun k hk => ?_)
    have hk : k < s.J := hk
    by_cases h : 1 ≤ k ∧ k + 1 < s.J
    · rw [if_pos h, if_pos h]
    · rw [if_neg h, if_neg h]
      by_cases h' : k = s.J - 1
      · rw [h', gJ, if_pos rfl]
      · rw [if_neg h', show k = 0 by omega, g0]
  exact step_of_march hm

end

/-! ## The coefficients in doubles -/

/-- The coefficients of implicit Euler for the Black-Scholes equation at node `j`. -/
noncomputable def loI (σ r c h k : ℝ) (j : ℕ) : ℝ := h * h * (k * j * (σ ^ 2 * j - (r - c)) / 2)
noncomputable def upI (σ r c h k : ℝ) (j : ℕ) : ℝ := h * h * (k * j * (σ ^ 2 * j + (r - c)) / 2)
noncomputable def dgI (σ r h k : ℝ) (j : ℕ) : ℝ := h * h * (1 + k * (σ ^ 2 * (j : ℝ) ^ 2 + r))

/-- The coefficients dominate. -/
theorem coefficients_sign {σ r c h k : ℝ} {j : ℕ} (hk : 0 ≤ k) (hr : 0 ≤ r) (hb : |r - c| ≤ σ ^ 2) (h1 : 1 ≤ j) :
    0 ≤ loI σ r c h k j ∧ 0 ≤ upI σ r c h k j ∧ h * h + loI σ r c h k j + upI σ r c h k j ≤ dgI σ r h k j := by
  have hj : (1 : ℝ) ≤ j := by exact_mod_cast h1
  obtain ⟨b1, b2⟩ := abs_le.mp hb
  have hσ : 0 ≤ σ ^ 2 := sq_nonneg σ
  have s1 : σ ^ 2 ≤ σ ^ 2 * j := le_mul_of_one_le_right hσ hj
  have hh : 0 ≤ h * h := mul_self_nonneg h
  refine ⟨mul_nonneg hh ?_, mul_nonneg hh ?_, ?_⟩
  · have : 0 ≤ σ ^ 2 * j - (r - c) := by linarith
    positivity
  · have : 0 ≤ σ ^ 2 * j + (r - c) := by linarith
    positivity
  · have : 0 ≤ h * h * (k * r) := by positivity
    unfold loI upI dgI
    linarith

/-- The coefficients are moderate. -/
theorem coefficients_size {σ r h k P : ℝ} {J j : ℕ} (hk : 0 ≤ k) (hr : 0 ≤ r) (hP : k * (σ ^ 2 * (J : ℝ) ^ 2 + r) ≤ P) (h2 : j ≤ J) :
    dgI σ r h k j ≤ h * h * (1 + P) := by
  have hj2 : (j : ℝ) ≤ J := by exact_mod_cast h2
  unfold dgI
  have : k * (σ ^ 2 * (j : ℝ) ^ 2 + r) ≤ k * (σ ^ 2 * (J : ℝ) ^ 2 + r) := by gcongr
  exact mul_le_mul_of_nonneg_left (by linarith) (mul_self_nonneg h)

set_option maxHeartbeats 2000000 in
/-- One row of the system, as computed in doubles. -/
theorem implicitRow_double {σ r c h k P V : ℝ} {J j : ℕ} {dx dt x : Dbl .binary64} (hdx : Nr 0 1 h dx h) (hdt : Nr 0 1 k dt k)
    (hx : Nr 1 2 (j * h) x (j * h)) (hk : 0 ≤ k) (hr : 0 ≤ r) (hb : |r - c| ≤ σ ^ 2) (hP : k * (σ ^ 2 * (J : ℝ) ^ 2 + r) ≤ P) (hP2 : P ≤ 2 ^ 16)
    (hσ : |σ| ≤ 2 ^ 10) (hr2 : r ≤ 2 ^ 10) (hk2 : k ≤ 2 ^ 10) (hh : 2 ^ (-30 : ℤ) ≤ h) (hh2 : h ≤ 2 ^ 20) (hx2 : j * h ≤ 2 ^ 20)
    (h2 : j < J) (hV : V ≤ 2 ^ 40) (hV2 : 2 ^ (-20 : ℤ) ≤ V) {o n₀ n₁ : ℝ} (ho : |o| ≤ V) (hn₀ : |n₀| ≤ V) (hn₁ : |n₁| ≤ V) :
    ∃ al be ga b b₀ b₁ : ℝ,
      (dt * (lit (1 / 2) * .num σ * .num σ * x * x) - lit (1 / 2) * dt * dx * ((.num r - .num c) * x) : Dbl .binary64) = .num al ∧
      (-(dx * dx) - lit 2 * (dt * (lit (1 / 2) * .num σ * .num σ * x * x)) + dt * (dx * dx) * -.num r : Dbl .binary64) = .num be ∧
      (dt * (lit (1 / 2) * .num σ * .num σ * x * x) + lit (1 / 2) * dt * dx * ((.num r - .num c) * x) : Dbl .binary64) = .num ga ∧
      (dx * dx * (dt * lit 0 - .num o) : Dbl .binary64) = .num b ∧
      (.num b - .num al * .num n₀ : Dbl .binary64) = .num b₀ ∧
      (.num b - .num ga * .num n₁ : Dbl .binary64) = .num b₁ ∧
      |al - loI σ r c h k j| ≤ h * h * (1 + P) / 2 ^ 48 ∧ |be - -dgI σ r h k j| ≤ h * h * (1 + P) / 2 ^ 48 ∧ |ga - upI σ r c h k j| ≤ h * h * (1 + P) / 2 ^ 48 ∧
      |b - -(h * h * o)| ≤ h * h * (1 + P) * V / 2 ^ 48 ∧ |b₀ - (-(h * h * o) - loI σ r c h k j * n₀)| ≤ h * h * (1 + P) * V / 2 ^ 48 ∧
      |b₁ - (-(h * h * o) - upI σ r c h k j * n₁)| ≤ h * h * (1 + P) * V / 2 ^ 48 := by
  have hh0 : 0 < h := lt_of_lt_of_le (by positivity) hh
  have hx0 : 0 ≤ j * h := by positivity
  have hj2 : (j : ℝ) ≤ J := by exact_mod_cast h2.le
  have hJ1 : (1 : ℝ) ≤ J := by exact_mod_cast (by omega : 1 ≤ J)
  have hrc : |r - c| ≤ 2 ^ 20 := hb.trans (by
    rw [← sq_abs]
    calc |σ| ^ 2 ≤ (2 ^ 10) ^ 2 := by gcongr
      _ = 2 ^ 20 := by norm_num)
  have hhh : h * h ≤ 2 ^ 40 := by
    calc h * h ≤ 2 ^ 20 * 2 ^ 20 := by gcongr
      _ = 2 ^ 40 := by norm_num
  have hhlow : 2 ^ (-60 : ℤ) ≤ h * h := by
    calc (2 : ℝ) ^ (-60 : ℤ) = 2 ^ (-30 : ℤ) * 2 ^ (-30 : ℤ) := by norm_num
      _ ≤ h * h := by gcongr
  have hV0 : 0 ≤ V := (abs_nonneg _).trans ho
  have hP0 : 0 ≤ P := le_trans (by positivity) hP
  -- the diffusion
  have half := Nr.half
  have s1 := half.mul (Nr.exact σ) (by omega) (by norm_num) (by norm_num) (by norm_num) (hσ.trans (by norm_num))
  have b1 : 1 / 2 * |σ| ≤ 2 ^ 10 := by linarith
  have s2 := s1.mul ((Nr.exact σ).weaken (d' := 1) (by omega) le_rfl) (by omega) (by norm_num) (by norm_num) (b1.trans (by norm_num)) (hσ.trans (by norm_num))
  have b2 : 1 / 2 * |σ| * |σ| ≤ 2 ^ 20 := by
    calc 1 / 2 * |σ| * |σ| ≤ 2 ^ 10 * 2 ^ 10 := by gcongr
      _ = 2 ^ 20 := by norm_num
  have s3 := s2.mul (hx.weaken (d' := 2) (by omega) le_rfl) (by omega) (by norm_num) (by norm_num) (b2.trans (by norm_num)) (hx2.trans (by norm_num))
  have b3 : 1 / 2 * |σ| * |σ| * (j * h) ≤ 2 ^ 40 := by
    calc 1 / 2 * |σ| * |σ| * (j * h) ≤ 2 ^ 20 * 2 ^ 20 := by gcongr
      _ = 2 ^ 40 := by norm_num
  have s4 := s3.mul (hx.weaken (d' := 3) (by omega) le_rfl) (by omega) (by norm_num) (by norm_num) (b3.trans (by norm_num)) (hx2.trans (by norm_num))
  have b4 : 1 / 2 * |σ| * |σ| * (j * h) * (j * h) ≤ 2 ^ 60 := by
    calc 1 / 2 * |σ| * |σ| * (j * h) * (j * h) ≤ 2 ^ 40 * 2 ^ 20 := by gcongr
      _ = 2 ^ 60 := by norm_num
  have a := (hdt.weaken (d' := 4) (by omega) le_rfl).mul s4 (by omega) (by norm_num) (by norm_num) (hk2.trans (by norm_num)) b4
  -- the convection
  have c1 := Nr.rnd (x := r - c) (hrc.trans (by norm_num))
  have c2 := (c1.weaken (d' := 1) (by omega) le_rfl).mul hx (by omega) (by norm_num) (by norm_num) (hrc.trans (by norm_num)) (hx2.trans (by norm_num))
  have c3 := half.mul hdt (by omega) (by norm_num) (by norm_num) (by norm_num) (hk2.trans (by norm_num))
  have d1 : 1 / 2 * k ≤ 2 ^ 10 := by linarith
  have c4 := c3.mul (hdx.weaken (d' := 1) (by omega) le_rfl) (by omega) (by norm_num) (by norm_num) (d1.trans (by norm_num)) (hh2.trans (by norm_num))
  have d2 : 1 / 2 * k * h ≤ 2 ^ 30 := by
    calc 1 / 2 * k * h ≤ 2 ^ 10 * 2 ^ 20 := by gcongr
      _ = 2 ^ 30 := by norm_num
  have d3 : |r - c| * (j * h) ≤ 2 ^ 40 := by
    calc |r - c| * (j * h) ≤ 2 ^ 20 * 2 ^ 20 := by gcongr
      _ = 2 ^ 40 := by norm_num
  have b := c4.mul c2 (by omega) (by norm_num) (by norm_num) (d2.trans (by norm_num)) (d3.trans (by norm_num))
  -- sizes
  have szA : k * (1 / 2 * |σ| * |σ| * (j * h) * (j * h)) ≤ k * (σ ^ 2 * (J : ℝ) ^ 2) * (h * h) / 2 := by
    have e : k * (1 / 2 * |σ| * |σ| * (j * h) * (j * h)) = k * (σ ^ 2 * (j : ℝ) ^ 2) * (h * h) / 2 := by rw [← sq_abs σ]; ring
    rw [e]
    gcongr
  have szB : 1 / 2 * k * h * (|r - c| * (j * h)) ≤ k * (σ ^ 2 * (J : ℝ) ^ 2) * (h * h) / 2 := by
    calc 1 / 2 * k * h * (|r - c| * (j * h)) = k * (|r - c| * j) * (h * h) / 2 := by ring
      _ ≤ k * (σ ^ 2 * (J : ℝ) ^ 2) * (h * h) / 2 := by
        gcongr
        nlinarith
  have szR : k * (h * h) * |r| ≤ k * r * (h * h) := by rw [abs_of_nonneg hr]; linarith
  have hQ : k * (σ ^ 2 * (J : ℝ) ^ 2) * (h * h) + k * r * (h * h) ≤ h * h * P := by
    calc k * (σ ^ 2 * (J : ℝ) ^ 2) * (h * h) + k * r * (h * h) = h * h * (k * (σ ^ 2 * (J : ℝ) ^ 2 + r)) := by ring
      _ ≤ h * h * P := by gcongr
  have hQ0 : 0 ≤ k * r * (h * h) := by positivity
  have hQ1 : 0 ≤ k * (σ ^ 2 * (J : ℝ) ^ 2) * (h * h) := by positivity
  have hPH : h * h * P ≤ 2 ^ 56 := by
    calc h * h * P ≤ 2 ^ 40 * 2 ^ 16 := by gcongr
      _ = 2 ^ 56 := by norm_num
  -- the coefficients
  have al := a.sub (b.weaken (d' := 5) (k' := 11) (by omega) (by omega)) (by omega) (by norm_num) (by linarith) (by linarith)
  have ga := a.add (b.weaken (d' := 5) (k' := 11) (by omega) (by omega)) (by omega) (by norm_num) (by linarith) (by linarith)
  have two : Nr 0 0 2 (lit 2) 2 := by simpa using Nr.nat (n := 2) (by norm_num)
  have dx2 := hdx.mul hdx (by omega) (by norm_num) (by norm_num) (hh2.trans (by norm_num)) (hh2.trans (by norm_num))
  have g1 := (two.weaken (d' := 5) (by omega) le_rfl).mul a (by omega) (by norm_num) (by norm_num) (by norm_num) (by linarith)
  have g2 := (dx2.neg.weaken (d' := 6) (k' := 12) (by omega) (by omega)).sub g1 (by omega) (by norm_num) (by linarith) (by linarith)
  have g3 := (hdt.weaken (d' := 1) (by omega) le_rfl).mul dx2 (by omega) (by norm_num) (by norm_num) (by linarith) (by linarith)
  have g4 := g3.mul ((Nr.exact r).neg.weaken (d' := 2) (by omega) le_rfl) (by omega) (by norm_num) (by norm_num)
    ((mul_le_mul hk2 hhh (by positivity) (by norm_num)).trans (by norm_num)) (by rw [abs_of_nonneg hr]; linarith)
  have be := g2.add (g4.weaken (d' := 7) (k' := 13) (by omega) (by omega)) (by omega) (by norm_num) (by linarith) (by linarith)
  -- the right-hand side
  have f0 := hdt.mul (Nr.exact 0) (by omega) (by norm_num) (by norm_num) (by linarith) (by norm_num)
  have f1 := f0.sub ((Nr.exact o).weaken (d' := 1) (k' := 2) (by omega) (by omega)) (by omega) (by norm_num) (by rw [abs_zero, mul_zero]; norm_num)
    (ho.trans (hV.trans (by norm_num)))
  rw [abs_zero, mul_zero, zero_sub, show (0 : ℝ) + |o| = |o| from zero_add _] at f1
  have hhh' : h * h ≤ 2 ^ 60 := hhh.trans (by norm_num)
  have ho' : |o| ≤ 2 ^ 60 := ho.trans (hV.trans (by norm_num))
  have f2 := (dx2.weaken (d' := 2) (by omega) le_rfl).mul f1 (by omega) (by norm_num) (by norm_num) hhh' ho'
  generalize mA : k * (1 / 2 * |σ| * |σ| * (j * h) * (j * h)) = A at *
  generalize mB : 1 / 2 * k * h * (|r - c| * (j * h)) = B at *
  generalize mR : k * (h * h) * |r| = Rr at *
  have nA : 0 ≤ A := by rw [← mA]; positivity
  have nB : 0 ≤ B := by rw [← mB]; positivity
  have nR : 0 ≤ Rr := by rw [← mR]; positivity
  have eal : k * (1 / 2 * σ * σ * (j * h) * (j * h)) - 1 / 2 * k * h * ((r - c) * (j * h)) = loI σ r c h k j := by unfold loI; ring
  have ega : k * (1 / 2 * σ * σ * (j * h) * (j * h)) + 1 / 2 * k * h * ((r - c) * (j * h)) = upI σ r c h k j := by unfold upI; ring
  have ebe : -(h * h) - 2 * (k * (1 / 2 * σ * σ * (j * h) * (j * h))) + k * (h * h) * -r = -dgI σ r h k j := by unfold dgI; ring
  rw [eal] at al
  rw [ega] at ga
  rw [ebe] at be
  have p0 := al.mul ((Nr.exact n₀).weaken (d' := 6) (by omega) le_rfl) (by omega) (by norm_num) (by norm_num) (by linarith) (hn₀.trans (hV.trans (by norm_num)))
  have p1 := ga.mul ((Nr.exact n₁).weaken (d' := 6) (by omega) le_rfl) (by omega) (by norm_num) (by norm_num) (by linarith) (hn₁.trans (hV.trans (by norm_num)))
  have z0 : (A + B) * |n₀| ≤ h * h * P * V := mul_le_mul (by linarith) hn₀ (abs_nonneg _) (by positivity)
  have z1 : (A + B) * |n₁| ≤ h * h * P * V := mul_le_mul (by linarith) hn₁ (abs_nonneg _) (by positivity)
  have z2 : h * h * |o| ≤ h * h * V := by gcongr
  have big : h * h * P * V ≤ 2 ^ 56 * 2 ^ 40 := mul_le_mul hPH hV hV0 (by norm_num)
  have big2 : h * h * V ≤ 2 ^ 40 * 2 ^ 40 := mul_le_mul hhh hV hV0 (by norm_num)
  have q0 := (f2.weaken (d' := 7) (k' := 13) (by omega) (by omega)).sub p0 (by omega) (by norm_num) (by linarith) (by linarith)
  have q1 := (f2.weaken (d' := 7) (k' := 13) (by omega) (by omega)).sub p1 (by omega) (by norm_num) (by linarith) (by linarith)
  have zero : (lit 0 : Dbl .binary64) = .num ((0 : ℝ) : EReal) := Dbl.lit_zero
  obtain ⟨yal, e1, w1⟩ := al.error (by omega) (by norm_num)
  obtain ⟨ybe, e2, w2⟩ := be.error (by omega) (by norm_num)
  obtain ⟨yga, e3, w3⟩ := ga.error (by omega) (by norm_num)
  obtain ⟨yb, e4, w4⟩ := f2.error (by omega) (by norm_num)
  rw [e4, e1] at q0
  rw [e4, e3] at q1
  obtain ⟨yb0, e5, w5⟩ := q0.error (by omega) (by norm_num)
  obtain ⟨yb1, e6, w6⟩ := q1.error (by omega) (by norm_num)
  have t1 : (2 : ℝ) ^ (-165 : ℤ) ≤ h * h * (1 + P) / 2 ^ 100 := by
    rw [le_div_iff₀ (by norm_num)]
    calc (2 : ℝ) ^ (-165 : ℤ) * 2 ^ 100 ≤ 2 ^ (-60 : ℤ) := by norm_num
      _ ≤ h * h := hhlow
      _ ≤ h * h * (1 + P) := le_mul_of_one_le_right (by positivity) (by linarith)
  have t2 : (2 : ℝ) ^ (-165 : ℤ) ≤ h * h * (1 + P) * V / 2 ^ 80 := by
    rw [le_div_iff₀ (by norm_num)]
    calc (2 : ℝ) ^ (-165 : ℤ) * 2 ^ 80 ≤ 2 ^ (-60 : ℤ) * 2 ^ (-20 : ℤ) := by norm_num
      _ ≤ h * h * (1 + P) * V := mul_le_mul (hhlow.trans (le_mul_of_one_le_right (by positivity) (by linarith))) hV2 (by positivity) (by positivity)
  have fin : ∀ (n : ℕ) (m Q : ℝ), n ≤ 14 → 0 ≤ m → m ≤ Q → (2 : ℝ) ^ (-165 : ℤ) ≤ Q / 2 ^ 80 → 2 * (n : ℝ) * 2 ^ (-53 : ℤ) * m + 2 ^ (-165 : ℤ) ≤ Q / 2 ^ 48 := by
    intro n m Q hn hm hmQ hQ
    have hn' : (n : ℝ) ≤ 14 := by exact_mod_cast hn
    have : 2 * (n : ℝ) * 2 ^ (-53 : ℤ) * m ≤ 2 * 14 * 2 ^ (-53 : ℤ) * Q := by gcongr
    rw [show (2 : ℝ) * 14 * 2 ^ (-53 : ℤ) = 28 / 2 ^ 53 by norm_num] at this
    have hQ0 : 0 ≤ Q := hm.trans hmQ
    generalize (2 : ℝ) ^ (-165 : ℤ) = τ at *
    linarith
  have hh' : 0 ≤ h * h * P := by positivity
  have hhp : 0 ≤ h * h := by positivity
  have eq1 : h * h * (1 + P) = h * h + h * h * P := by ring
  have eq2 : h * h * (1 + P) * V = h * h * V + h * h * P * V := by ring
  have t1' : (2 : ℝ) ^ (-165 : ℤ) ≤ h * h * (1 + P) / 2 ^ 80 := t1.trans (div_le_div_of_nonneg_left (by positivity) (by norm_num) (by norm_num))
  refine ⟨yal, ybe, yga, yb, yb0, yb1, by rw [Dbl.sub_coe]; exact e1, e2, by rw [Dbl.sub_coe]; exact e3, by rw [zero]; exact e4, e5, e6, w1.trans (fin _ _ _ (by omega) (by positivity) (by linarith) t1'),
    w2.trans (fin _ _ _ (by omega) (by positivity) (by linarith) t1'), w3.trans (fin _ _ _ (by omega) (by positivity) (by linarith) t1'), ?_, ?_, ?_⟩
  · rw [← mul_neg]
    exact w4.trans (fin _ _ _ (by omega) (by positivity) (by linarith [mul_nonneg hh' hV0]) t2)
  · rw [← mul_neg]
    exact w5.trans (fin _ _ _ (by omega) (by positivity) (by linarith) t2)
  · rw [← mul_neg]
    exact w6.trans (fin _ _ _ (by omega) (by positivity) (by linarith) t2)

/-! ## The solution of the system in doubles -/

/-- The same matrix in doubles. -/
theorem triMat_inDoubles {J : ℕ} (al be ga b : ℕ → ℝ) : InDoubles (triMat J al be ga) (vec (J - 2) b)
    (partMat J (J - 2) (fun i => .num (al i)) (fun i => .num (be i)) (fun i => .num (ga i))) (vec (J - 2) fun i => .num (b i)) := by
  refine ⟨rfl, rfl, fun i j hi hj => ?_, ?_⟩
  · have hi : i < J - 2 := hi
    have hj : j < J - 2 := hj
    rw [partMat_coeff _ _ _ hj le_rfl, if_pos hi, triMat_coeff _ _ _ hi hj]
    split_ifs <;> first | rfl | exact Dbl.lit_zero
  · simp [asDoubles, vec, Function.comp_def]

set_option maxHeartbeats 1000000 in
/-- The Thomas algorithm applied to a system with rounded coefficients. -/
theorem solve_rounded {J : ℕ} {H Q V l R : ℝ} {lo up dg g al be ga b : ℕ → ℝ} (hJ : 4 ≤ J) (hJ2 : J ≤ 2 ^ 20) (hH : 2 ^ (-60 : ℤ) ≤ H) (hH2 : H ≤ 2 ^ 40)
    (hQ : Q ≤ 2 ^ 20 * H) (hV : 2 ^ (-20 : ℤ) ≤ V) (hV2 : V ≤ 2 ^ 40) (hlo : ∀ i < J - 2, 0 ≤ lo i) (hup : ∀ i < J - 2, 0 ≤ up i)
    (hdom : ∀ i < J - 2, H + lo i + up i ≤ dg i) (hdg : ∀ i < J - 2, dg i ≤ Q) (hg : ∀ i < J - 2, |g i| ≤ H * V) (hl : |l| ≤ V) (hR : |R| ≤ V)
    (eal : ∀ i < J - 2, |al i - lo i| ≤ Q / 2 ^ 48) (ebe : ∀ i < J - 2, |be i - -dg i| ≤ Q / 2 ^ 48) (ega : ∀ i < J - 2, |ga i - up i| ≤ Q / 2 ^ 48)
    (eb : ∀ i < J - 2, |b i - (g i - (if i = 0 then lo i * l else 0) - (if i + 1 = J - 2 then up i * R else 0))| ≤ Q * V / 2 ^ 48) :
    ∃ x : ℕ → ℝ, thomas (partMat J (J - 2) (fun i => .num (al i)) (fun i => .num (be i)) (fun i => .num (ga i))) (vec (J - 2) fun i => .num (b i)) =
        .ok (vec (J - 2) fun i => (.num (x i) : Dbl .binary64)) ∧
      ∀ i < J - 2, |lo i * (if i = 0 then l else x (i - 1)) - dg i * x i + up i * (if i + 1 = J - 2 then R else x (i + 1)) - g i| ≤ Q * V / 2 ^ 41 := by
  have hH0 : 0 < H := lt_of_lt_of_le (by positivity) hH
  have hV0 : 0 < V := lt_of_lt_of_le (by positivity) hV
  have hHQ : H ≤ Q := by
    have a := hlo 0 (by omega)
    have b := hup 0 (by omega)
    have c := hdom 0 (by omega)
    have d := hdg 0 (by omega)
    linarith
  have hQ0 : 0 < Q := hH0.trans_le hHQ
  have hrow : (triMat J al be ga).rows = J - 2 := rfl
  -- the excess of a row
  have hslack : ∀ i < J - 2, H / 2 ≤ slack (triMat J al be ga) i ∧ |b i| ≤ 4 * V * slack (triMat J al be ga) i := by
    intro i hi
    rw [Thomas.slack_eq (triMat_tridiagonal J al be ga) hi]
    have h1 : (triMat J al be ga).coeff i i = be i := by rw [triMat_coeff al be ga hi hi, if_neg (by omega), if_pos rfl]
    have h2 : Thomas.left (triMat J al be ga) i = if i = 0 then 0 else al i := by
      unfold Thomas.left
      by_cases h0 : i = 0
      · rw [if_pos h0, if_pos h0]
      · rw [if_neg h0, if_neg h0, triMat_coeff al be ga hi (by omega), if_pos (by omega)]
    have h3 : Thomas.right (triMat J al be ga) i = if i + 1 = J - 2 then 0 else ga i := by
      unfold Thomas.right
      change (if i + 1 < J - 2 then _ else _) = _
      by_cases h0 : i + 1 = J - 2
      · rw [if_neg (by omega), if_pos h0]
      · rw [if_pos (by omega), if_neg h0, triMat_coeff al be ga hi (by omega), if_neg (by omega), if_neg (by omega), if_pos rfl]
    rw [h1, h2, h3]
    have a1 := hlo i hi
    have a2 := hup i hi
    have a3 := hdom i hi
    have a4 := hdg i hi
    have a5 := abs_le.mp (eal i hi)
    have a6 := abs_le.mp (ebe i hi)
    have a7 := abs_le.mp (ega i hi)
    have a8 := abs_le.mp (eb i hi)
    have a9 := abs_le.mp (hg i hi)
    have hbe : |be i| ≥ dg i - Q / 2 ^ 48 := by
      have := neg_abs_le (be i)
      linarith [a6.1, a6.2]
    have hal : |al i| ≤ lo i + Q / 2 ^ 48 := abs_le.mpr ⟨by linarith [a5.1], by linarith [a5.2]⟩
    have hga : |ga i| ≤ up i + Q / 2 ^ 48 := abs_le.mpr ⟨by linarith [a7.1], by linarith [a7.2]⟩
    have l1 : lo i * l ≤ lo i * V := mul_le_mul_of_nonneg_left ((le_abs_self l).trans hl) a1
    have l2 : -(lo i * V) ≤ lo i * l := by
      have := mul_le_mul_of_nonneg_left (neg_le_of_abs_le hl) a1
      linarith
    have r1 : up i * R ≤ up i * V := mul_le_mul_of_nonneg_left ((le_abs_self R).trans hR) a2
    have r2 : -(up i * V) ≤ up i * R := by
      have := mul_le_mul_of_nonneg_left (neg_le_of_abs_le hR) a2
      linarith
    have q1 : Q * V ≤ 2 ^ 20 * (H * V) := by
      have := mul_le_mul_of_nonneg_right hQ hV0.le
      linarith
    have hHV : 0 ≤ H * V := by positivity
    have t1 : 0 ≤ lo i * V := by positivity
    have t2 : 0 ≤ up i * V := by positivity
    have key : ∀ s y e : ℝ, H / 2 ≤ s → e / 2 ≤ s → |y| ≤ 2 * (e * V) → H / 2 ≤ s ∧ |y| ≤ 4 * V * s := by
      intro s y e h1 h2 h3
      refine ⟨h1, ?_⟩
      have := mul_le_mul_of_nonneg_left h2 (by linarith : 0 ≤ 4 * V)
      linarith
    by_cases c1 : i = 0
    · have c2 : ¬ i + 1 = J - 2 := by omega
      rw [if_pos c1, if_neg c2] at a8
      rw [if_pos c1, if_neg c2, abs_zero]
      refine key _ _ (H + lo i) ?_ ?_ (abs_le.mpr ⟨?_, ?_⟩) <;> linarith [a8.1, a8.2, a9.1, a9.2]
    · by_cases c2 : i + 1 = J - 2
      · rw [if_neg c1, if_pos c2] at a8
        rw [if_neg c1, if_pos c2, abs_zero]
        refine key _ _ (H + up i) ?_ ?_ (abs_le.mpr ⟨?_, ?_⟩) <;> linarith [a8.1, a8.2, a9.1, a9.2]
      · rw [if_neg c1, if_neg c2] at a8
        rw [if_neg c1, if_neg c2]
        refine key _ _ H ?_ ?_ (abs_le.mpr ⟨?_, ?_⟩) <;> linarith [a8.1, a8.2, a9.1, a9.2]
  have hent : ∀ i < J - 2, entry (vec (J - 2) b) i = b i := fun i hi => by unfold entry; rw [vec_getD _ _ hi]
  have hsc : Scaled (triMat J al be ga) (vec (J - 2) b) (2 * Q) (H / 2) (4 * V) := by
    refine ⟨fun i hi => ?_, fun i hi => (hslack i hi).1, fun i hi => ?_, by linarith, ?_, ?_, ?_, ?_⟩
    · have hi : i < J - 2 := hi
      rw [show (triMat J al be ga).coeff i i = be i by rw [triMat_coeff al be ga hi hi, if_neg (by omega), if_pos rfl]]
      have a6 := abs_le.mp (ebe i hi)
      have a4 := hdg i hi
      have a1 := hlo i hi
      have a2 := hup i hi
      have a3 := hdom i hi
      exact abs_le.mpr ⟨by linarith [a6.1], by linarith [a6.2]⟩
    · rw [hent i hi]
      exact (hslack i hi).2
    · have : 2 * Q ≤ 2 * (2 ^ 20 * 2 ^ 40) := by linarith
      exact this.trans (by norm_num)
    · have : (2 : ℝ) ^ (-60 : ℤ) / 2 ≤ H / 2 := by gcongr
      exact le_trans (by norm_num) this
    · have : 4 * V ≤ 4 * 2 ^ 40 := by linarith
      exact this.trans (by norm_num)
    · have : 4 * (2 : ℝ) ^ (-20 : ℤ) ≤ 4 * V := by gcongr
      exact le_trans (by norm_num) this
  obtain ⟨x, e1, e2, e3, e4, -⟩ := C91_residual (triMat J al be ga) (triMat_tridiagonal J al be ga) (by rw [hrow]; omega) (by rw [hrow]; omega) (vec (J - 2) b)
    (by rw [vec_length]; rfl) hsc _ _ (triMat_inDoubles al be ga b)
  have e2 : x.length = J - 2 := e2
  refine ⟨entry x, ?_, fun i hi => ?_⟩
  · rw [e1]
    congr 1
    conv_lhs => rw [asDoubles, eq_vec (0 : ℝ) x, e2]
    simp [vec, entry, Function.comp_def]
  · have hx : ∀ n < J - 2, |entry x n| ≤ 16 * V := fun n hn => (e3 n hn).trans (by linarith)
    have hd := e4 i hi
    unfold defect at hd
    rw [triMat_row al be ga hi, hent i hi] at hd
    have hb := eb i hi
    have a1 := eal i hi
    have a2 := ebe i hi
    have a3 := ega i hi
    have m2 : |(be i - -dg i) * entry x i| ≤ Q * V / 2 ^ 44 := by
      rw [abs_mul]
      calc |be i - -dg i| * |entry x i| ≤ Q / 2 ^ 48 * (16 * V) := mul_le_mul a2 (hx i hi) (abs_nonneg _) (by positivity)
        _ = Q * V / 2 ^ 44 := by ring
    have hQV : 0 ≤ Q * V := by positivity
    have hd' := abs_le.mp (hd.trans (le_of_eq (by ring : 2 * Q * (4 * V) / 2 ^ 45 = Q * V / 2 ^ 42)))
    have m2' := abs_le.mp m2
    have hb' := abs_le.mp hb
    have m1 : i ≠ 0 → |(al i - lo i) * entry x (i - 1)| ≤ Q * V / 2 ^ 44 := fun h0 => by
      rw [abs_mul]
      calc |al i - lo i| * |entry x (i - 1)| ≤ Q / 2 ^ 48 * (16 * V) := mul_le_mul a1 (hx _ (by omega)) (abs_nonneg _) (by positivity)
        _ = Q * V / 2 ^ 44 := by ring
    have m3 : i + 1 ≠ J - 2 → |(ga i - up i) * entry x (i + 1)| ≤ Q * V / 2 ^ 44 := fun h0 => by
      rw [abs_mul]
      calc |ga i - up i| * |entry x (i + 1)| ≤ Q / 2 ^ 48 * (16 * V) := mul_le_mul a3 (hx _ (by omega)) (abs_nonneg _) (by positivity)
        _ = Q * V / 2 ^ 44 := by ring
    by_cases c1 : i = 0
    · have c2 : ¬ i + 1 = J - 2 := by omega
      rw [if_pos c1, if_neg c2] at hb' ⊢
      rw [if_pos c1, if_pos (by omega)] at hd'
      have m3' := abs_le.mp (m3 c2)
      refine abs_le.mpr ⟨?_, ?_⟩ <;> linarith [hb'.1, hb'.2, hd'.1, hd'.2, m2'.1, m2'.2, m3'.1, m3'.2]
    · have m1' := abs_le.mp (m1 c1)
      by_cases c2 : i + 1 = J - 2
      · rw [if_neg c1, if_pos c2] at hb' ⊢
        rw [if_neg c1, if_neg (by omega)] at hd'
        refine abs_le.mpr ⟨?_, ?_⟩ <;> linarith [hb'.1, hb'.2, hd'.1, hd'.2, m2'.1, m2'.2, m1'.1, m1'.2]
      · rw [if_neg c1, if_neg c2] at hb' ⊢
        rw [if_neg c1, if_pos (by omega)] at hd'
        have m3' := abs_le.mp (m3 c2)
        refine abs_le.mpr ⟨?_, ?_⟩ <;> linarith [hb'.1, hb'.2, hd'.1, hd'.2, m2'.1, m2'.2, m1'.1, m1'.2, m3'.1, m3'.2]

/-- The maximum principle. -/
theorem maximum_principle {J : ℕ} {H E : ℝ} (hJ : 0 < J) (hH : 0 < H) {lo up dg w : ℕ → ℝ} (hlo : ∀ j, 1 ≤ j → j + 1 < J → 0 ≤ lo j) (hup : ∀ j, 1 ≤ j → j + 1 < J → 0 ≤ up j)
    (hdom : ∀ j, 1 ≤ j → j + 1 < J → H + lo j + up j ≤ dg j) (hw : ∀ j, 1 ≤ j → j + 1 < J → |lo j * w (j - 1) - dg j * w j + up j * w (j + 1)| ≤ H * E)
    (h0 : |w 0| ≤ E) (h1 : |w (J - 1)| ≤ E) : ∀ j < J, |w j| ≤ E := by
  obtain ⟨m, hm, hmax⟩ := Finset.exists_max_image (Finset.range J) (fun j => |w j|) ⟨0, Finset.mem_range.mpr hJ⟩
  have hm := Finset.mem_range.mp hm
  have hmax : ∀ j < J, |w j| ≤ |w m| := fun j hj => hmax j (Finset.mem_range.mpr hj)
  suffices h : |w m| ≤ E from fun j hj => (hmax j hj).trans h
  by_cases c0 : m = 0
  · rw [c0]; exact h0
  by_cases c1 : m = J - 1
  · rw [c1]; exact h1
  have a1 := hlo m (by omega) (by omega)
  have a2 := hup m (by omega) (by omega)
  have a3 := hdom m (by omega) (by omega)
  have a4 := hw m (by omega) (by omega)
  have b1 := mul_le_mul_of_nonneg_left (hmax (m - 1) (by omega)) a1
  have b2 := mul_le_mul_of_nonneg_left (hmax (m + 1) (by omega)) a2
  have b3 := mul_le_mul_of_nonneg_right a3 (abs_nonneg (w m))
  have e : dg m * |w m| ≤ H * E + lo m * |w m| + up m * |w m| := by
    have hd : 0 ≤ dg m := by linarith
    calc dg m * |w m| = |dg m * w m| := by rw [abs_mul, abs_of_nonneg hd]
      _ = |lo m * w (m - 1) + up m * w (m + 1) - (lo m * w (m - 1) - dg m * w m + up m * w (m + 1))| := by congr 1; ring
      _ ≤ |lo m * w (m - 1) + up m * w (m + 1)| + H * E := (abs_sub _ _).trans (by linarith)
      _ ≤ |lo m * w (m - 1)| + |up m * w (m + 1)| + H * E := by linarith [abs_add_le (lo m * w (m - 1)) (up m * w (m + 1))]
      _ ≤ H * E + lo m * |w m| + up m * |w m| := by rw [abs_mul, abs_mul, abs_of_nonneg a1, abs_of_nonneg a2]; linarith
  have : H * |w m| ≤ H * E := by linarith
  exact le_of_mul_le_mul_left this hH

end Fdm
end Verif
