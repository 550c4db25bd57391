import Verif.Lemmas.ImplicitRoundingPrice

/-!
# Rounding errors of Crank-Nicolson with the Thomas algorithm in binary64
-/

set_option exponentiation.threshold 3000

namespace Verif
open Spec

namespace Fdm

/-! ## One step for any kind of numbers -/

section
variable {F : Type} [Fl F] [Add F] [Sub F] [Mul F] [Div F] [Neg F]

/-- The loop solves a system after every row; the last solution counts. -/
theorem cnLoop_any {solver : MatrixSolver F} {p : Pde F} {s : Fdm F} {al be ga b : ℕ → F} {l r : F} {sol : List F} (hJ : 3 ≤ s.J)
    (hret : ∀ A b, A.rows = s.J - 2 → A.cols = s.J - 2 → b.length = s.J - 2 → ∃ x, solver A b = .ok x ∧ x.length = s.J - 2)
    (hrow : ∀ i < s.J - 2, ∀ (g : ℕ → F) (c : List F), g 0 = l → g (s.J - 1) = r →
      cnRow p { s with newPrices := vec s.J g, b := c } (i + 1) = .ok (rowOf s.J al be ga i, b i))
    (hsol : solver (partMat s.J (s.J - 2) al be ga) (vec (s.J - 2) b) = .ok sol) : ∀ (k m : ℕ) (g c : ℕ → F), m + k = s.J - 2 → 1 ≤ k →
    g 0 = l → g (s.J - 1) = r → (∀ i < m, c i = b i) →
    cnLoop solver p k (m + 1) (vec m (rowOf s.J al be ga)).flatten { s with newPrices := vec s.J g, b := vec (s.J - 2) c } =
      (.ok (), { s with newPrices := vec s.J fun j => if 1 ≤ j ∧ j + 1 < s.J then sol.getD (j - 1) (lit 0) else if j = s.J - 1 then r else l, b := vec (s.J - 2) b })
  | 0, _, _, _, _, hk, _, _, _ => by omega
  | k + 1, m, g, c, hmk, _, hg0, hgJ, hc => by
    have hm : m < s.J - 2 := by omega
    obtain ⟨c', hc'⟩ : ∃ c' : ℕ → F, ∀ i, c' i = if i = m then b m else c i := ⟨_, fun _ => rfl⟩
    have hcb : ∀ i < m + 1, c' i = b i := by
      intro i hi
      rw [hc']
      by_cases h' : i = m
      · rw [if_pos h', h']
      · rw [if_neg h', hc i (by omega)]
    have hrd : Eff.read (fun s => cnRow p s (m + 1)) { s with newPrices := vec s.J g, b := vec (s.J - 2) c } =
        (.ok (rowOf s.J al be ga m, b m), { s with newPrices := vec s.J g, b := vec (s.J - 2) c }) := by
      rw [Eff.read_apply, hrow m hm g _ hg0 hgJ]
    have hb : storeB m (b m) { s with newPrices := vec s.J g, b := vec (s.J - 2) c } = (.ok (), { s with newPrices := vec s.J g, b := vec (s.J - 2) c' }) := by
      unfold storeB
      dsimp only
      rw [vset_vec c _ hm]
      dsimp only
      rw [show c' = fun i => if i = m then b m else c i from funext hc']
    have hts : (vec m (rowOf s.J al be ga)).flatten ++ rowOf s.J al be ga m = (vec (m + 1) (rowOf s.J al be ga)).flatten := by
      simp [vec, List.range_succ]
    obtain ⟨x, hx, hxl⟩ := hret (partMat s.J (m + 1) al be ga) (vec (s.J - 2) c') rfl rfl (by simp)
    have hsys : cnSystem solver (vec (m + 1) (rowOf s.J al be ga)).flatten { s with newPrices := vec s.J g, b := vec (s.J - 2) c' } = .ok x := by
      unfold cnSystem
      dsimp only
      rw [ofTriplets_part al be ga (by omega), Res.bind_ok, hx]
    have hread : Eff.read (cnSystem solver (vec (m + 1) (rowOf s.J al be ga)).flatten) { s with newPrices := vec s.J g, b := vec (s.J - 2) c' } =
        (.ok x, { s with newPrices := vec s.J g, b := vec (s.J - 2) c' }) := by
      rw [Eff.read_apply, hsys]
    have it : cnIteration solver p (m + 1) (vec m (rowOf s.J al be ga)).flatten { s with newPrices := vec s.J g, b := vec (s.J - 2) c } =
        (.ok (vec (m + 1) (rowOf s.J al be ga)).flatten, { s with
          newPrices := (vec s.J fun k => if 1 ≤ k ∧ k + 1 < s.J then x.getD (k - 1) (lit 0) else g k), b := vec (s.J - 2) c' }) := by
      unfold cnIteration
      rw [Eff.bind_of_ok hrd]
      dsimp only
      rw [hts, show m + 1 - 1 = m from rfl, Eff.bind_of_ok hb, Eff.bind_of_ok hread,
        Eff.bind_of_ok (copySolution_any (s := { s with newPrices := vec s.J g, b := vec (s.J - 2) c' }) (by exact (by omega : 2 ≤ s.J)) hxl rfl)]
      rfl
    rw [cnLoop, Eff.bind_of_ok it]
    cases k with
    | zero =>
      have e : vec (s.J - 2) c' = vec (s.J - 2) b := vec_congr fun i hi => hcb i (by omega)
      have hm1 : m + 1 = s.J - 2 := by omega
      rw [e, hm1, hsol] at hx
      obtain rfl := Res.ok.inj hx
      rw [e]
      refine congrArg (fun v => (Res.ok (), { s with newPrices := v, b := vec (s.J - 2) b })) (vec_congr ?_)
      intro i hi
      by_cases h1 : 1 ≤ i ∧ i + 1 < s.J
      · rw [if_pos h1, if_pos h1]
      · rw [if_neg h1, if_neg h1]
        by_cases h' : i = s.J - 1
        · rw [h', hgJ, if_pos rfl]
        · rw [if_neg h', show i = 0 by omega, hg0]
    | succ k =>
      refine cnLoop_any hJ hret hrow hsol (k + 1) (m + 1) _ _ (by omega) (by omega) ?_ ?_ hcb
      · rw [if_neg (by omega), hg0]
      · rw [if_neg (by omega), hgJ]

/-- One step of Crank-Nicolson when nothing throws. -/
theorem step_crankNicolson {solver : MatrixSolver F} {p : Pde F} {s : Fdm F} {xs al be ga b : ℕ → F} {l r : F} {sol : List F} (hJ : 3 ≤ s.J) (hx : s.xValues = vec s.J xs)
    (hn : s.newPrices.length = s.J) (hbl : s.b.length = s.J - 2) (hl : p.boundaryLeft (s.tPrev + s.dt) (xs 0) = .ok l) (hr : p.boundaryRight (s.tPrev + s.dt) (xs (s.J - 1)) = .ok r)
    (hret : ∀ A b, A.rows = s.J - 2 → A.cols = s.J - 2 → b.length = s.J - 2 → ∃ x, solver A b = .ok x ∧ x.length = s.J - 2)
    (hrow : ∀ i < s.J - 2, ∀ (g : ℕ → F) (c : List F), g 0 = l → g (s.J - 1) = r →
      cnRow p { s with tCurr := s.tPrev + s.dt, newPrices := vec s.J g, b := c } (i + 1) = .ok (rowOf s.J al be ga i, b i))
    (hsol : solver (partMat s.J (s.J - 2) al be ga) (vec (s.J - 2) b) = .ok sol) :
    step (.crankNicolson solver) p s = (.ok (), { s with
      tCurr := s.tPrev + s.dt, tPrev := s.tPrev + s.dt, b := vec (s.J - 2) b,
      newPrices := vec s.J fun j => if 1 ≤ j ∧ j + 1 < s.J then sol.getD (j - 1) (lit 0) else if j = s.J - 1 then r else l,
      oldPrices := vec s.J fun j => if 1 ≤ j ∧ j + 1 < s.J then sol.getD (j - 1) (lit 0) else if j = s.J - 1 then r else l }) := by
  have en := eq_vec (lit 0 : F) s.newPrices
  have eb := eq_vec (lit 0 : F) s.b
  rw [hn] at en
  rw [hbl] at eb
  have hm : march (.crankNicolson solver) p { s with tCurr := s.tPrev + s.dt } = (.ok (), { s with
      tCurr := s.tPrev + s.dt, b := vec (s.J - 2) b, newPrices := vec s.J fun j => if 1 ≤ j ∧ j + 1 < s.J then sol.getD (j - 1) (lit 0) else if j = s.J - 1 then r else l }) := by
    unfold march
    dsimp only
    rw [Eff.bind_of_ok (boundary_ok (p := p) (time := (·.tCurr)) (s := { s with tCurr := s.tPrev + s.dt }) (by exact (by omega : 2 ≤ s.J)) en hx (fun _ => rfl) hl hr)]
    unfold innerCN
    rw [Eff.withState_apply]
    dsimp only
    rw [ulpred_pos (by omega), Nat.sub_sub]
    have key := cnLoop_any (solver := solver) (p := p) (s := { s with tCurr := s.tPrev + s.dt }) (al := al) (be := be) (ga := ga) (b := b) (l := l) (r := r) (sol := sol) hJ hret
      hrow hsol (s.J - 2) 0 (fun k => if k = s.J - 1 then r else if k = 0 then l else s.newPrices.getD k (lit 0)) (fun i => s.b.getD i (lit 0)) (by exact (by omega : 0 + (s.J - 2) = s.J - 2)) (by omega)
      (by rw [if_neg (by omega), if_pos rfl]) (by rw [if_pos rfl]) (fun i hi => absurd hi (Nat.not_lt_zero i))
    rw [← eb] at key
    exact key
  exact step_of_march hm

end

/-! ## The rows in doubles -/

/-- The coefficient of the old price at node `j`. -/
noncomputable def exC (σ r h k : ℝ) (j : ℕ) : ℝ := h * h * (1 - k / 2 * (σ ^ 2 * (j : ℝ) ^ 2 + r))

/-- The explicit half is an average if its weights are not negative. -/
theorem exC_sign {σ r c h k : ℝ} {J j : ℕ} (hk : 0 ≤ k) (hr : 0 ≤ r) (hP : k * (σ ^ 2 * (J : ℝ) ^ 2 + r) ≤ 2) (h2 : j ≤ J) :
    0 ≤ exC σ r h k j ∧ loI σ r c h (k / 2) j + exC σ r h k j + upI σ r c h (k / 2) j ≤ h * h := by
  have hj2 : (j : ℝ) ≤ J := by exact_mod_cast h2
  have hh : 0 ≤ h * h := mul_self_nonneg h
  have : k * (σ ^ 2 * (j : ℝ) ^ 2 + r) ≤ k * (σ ^ 2 * (J : ℝ) ^ 2 + r) := by gcongr
  constructor
  · exact mul_nonneg hh (by linarith)
  · have : 0 ≤ h * h * (k * r) := by positivity
    unfold loI upI exC
    linarith

set_option maxHeartbeats 4000000 in
/-- One row of the system, as computed in doubles. -/
theorem cnRow_double {σ r c h k V : ℝ} {J j : ℕ} {dx dt x : Dbl .binary64} (hdx : Nr 0 1 h dx h) (hdt : Nr 0 1 k dt k)
    (hx : Nr 1 2 (j * h) x (j * h)) (hk : 0 ≤ k) (hr : 0 ≤ r) (hb : |r - c| ≤ σ ^ 2) (hP : k * (σ ^ 2 * (J : ℝ) ^ 2 + r) ≤ 2)
    (hσ : |σ| ≤ 2 ^ 10) (hr2 : r ≤ 2 ^ 10) (hk2 : k ≤ 2 ^ 10) (hh : 2 ^ (-30 : ℤ) ≤ h) (hh2 : h ≤ 2 ^ 20) (hx2 : j * h ≤ 2 ^ 20)
    (h2 : j < J) (hV : V ≤ 2 ^ 40) (hV2 : 2 ^ (-20 : ℤ) ≤ V) {o₀ o o₂ n₀ n₁ : ℝ} (ho₀ : |o₀| ≤ V) (ho : |o| ≤ V) (ho₂ : |o₂| ≤ V) (hn₀ : |n₀| ≤ V) (hn₁ : |n₁| ≤ V)
    {A B al be ga al' be' ga' b : Dbl .binary64} (eA : A = dt * (lit (1 / 2) * .num σ * .num σ * x * x)) (eB : B = lit (1 / 2) * dt * dx * ((.num r - .num c) * x))
    (eal : al = lit (1 / 2) * (A - B)) (ebe : be = -(dx * dx) - A + lit (1 / 2) * dt * (dx * dx) * -.num r) (ega : ga = lit (1 / 2) * (A + B))
    (eal' : al' = -lit (1 / 2) * (A - B)) (ebe' : be' = -(dx * dx) + A - lit (1 / 2) * dt * (dx * dx) * -.num r) (ega' : ga' = -lit (1 / 2) * (A + B))
    (eb : b = lit (1 / 2) * (dx * dx) * dt * (lit 0 + lit 0)) :
    ∃ yal ybe yga y₀ y y₁ : ℝ, al = .num yal ∧ be = .num ybe ∧ ga = .num yga ∧
      b - al * .num n₀ + be' * .num o + ga' * .num o₂ = .num y₀ ∧ b + be' * .num o + al' * .num o₀ + ga' * .num o₂ = .num y ∧
      b - ga * .num n₁ + be' * .num o + al' * .num o₀ = .num y₁ ∧
      |yal - loI σ r c h (k / 2) j| ≤ 8 * (h * h) / 2 ^ 48 ∧ |ybe - -dgI σ r h (k / 2) j| ≤ 8 * (h * h) / 2 ^ 48 ∧ |yga - upI σ r c h (k / 2) j| ≤ 8 * (h * h) / 2 ^ 48 ∧
      |y₀ - (-(exC σ r h k j * o + upI σ r c h (k / 2) j * o₂) - loI σ r c h (k / 2) j * n₀)| ≤ 8 * (h * h) * V / 2 ^ 48 ∧
      |y - -(loI σ r c h (k / 2) j * o₀ + exC σ r h k j * o + upI σ r c h (k / 2) j * o₂)| ≤ 8 * (h * h) * V / 2 ^ 48 ∧
      |y₁ - (-(loI σ r c h (k / 2) j * o₀ + exC σ r h k j * o) - upI σ r c h (k / 2) j * n₁)| ≤ 8 * (h * h) * V / 2 ^ 48 := by
  have hh0 : 0 < h := lt_of_lt_of_le (by positivity) hh
  have hx0 : 0 ≤ j * h := by positivity
  have hj2 : (j : ℝ) ≤ J := by exact_mod_cast h2.le
  have hJ1 : (1 : ℝ) ≤ J := by exact_mod_cast (by omega : 1 ≤ J)
  have hrc : |r - c| ≤ 2 ^ 20 := hb.trans (by
    rw [← sq_abs]
    calc |σ| ^ 2 ≤ (2 ^ 10) ^ 2 := by gcongr
      _ = 2 ^ 20 := by norm_num)
  have hhh : h * h ≤ 2 ^ 40 := by
    calc h * h ≤ 2 ^ 20 * 2 ^ 20 := by gcongr
      _ = 2 ^ 40 := by norm_num
  have hhlow : 2 ^ (-60 : ℤ) ≤ h * h := by
    calc (2 : ℝ) ^ (-60 : ℤ) = 2 ^ (-30 : ℤ) * 2 ^ (-30 : ℤ) := by norm_num
      _ ≤ h * h := by gcongr
  have hV0 : 0 ≤ V := (abs_nonneg _).trans ho
  -- the diffusion
  have half := Nr.half
  have s1 := half.mul (Nr.exact σ) (by omega) (by norm_num) (by norm_num) (by norm_num) (hσ.trans (by norm_num))
  have b1 : 1 / 2 * |σ| ≤ 2 ^ 10 := by linarith
  have s2 := s1.mul ((Nr.exact σ).weaken (d' := 1) (by omega) le_rfl) (by omega) (by norm_num) (by norm_num) (b1.trans (by norm_num)) (hσ.trans (by norm_num))
  have b2 : 1 / 2 * |σ| * |σ| ≤ 2 ^ 20 := by
    calc 1 / 2 * |σ| * |σ| ≤ 2 ^ 10 * 2 ^ 10 := by gcongr
      _ = 2 ^ 20 := by norm_num
  have s3 := s2.mul (hx.weaken (d' := 2) (by omega) le_rfl) (by omega) (by norm_num) (by norm_num) (b2.trans (by norm_num)) (hx2.trans (by norm_num))
  have b3 : 1 / 2 * |σ| * |σ| * (j * h) ≤ 2 ^ 40 := by
    calc 1 / 2 * |σ| * |σ| * (j * h) ≤ 2 ^ 20 * 2 ^ 20 := by gcongr
      _ = 2 ^ 40 := by norm_num
  have s4 := s3.mul (hx.weaken (d' := 3) (by omega) le_rfl) (by omega) (by norm_num) (by norm_num) (b3.trans (by norm_num)) (hx2.trans (by norm_num))
  have b4 : 1 / 2 * |σ| * |σ| * (j * h) * (j * h) ≤ 2 ^ 60 := by
    calc 1 / 2 * |σ| * |σ| * (j * h) * (j * h) ≤ 2 ^ 40 * 2 ^ 20 := by gcongr
      _ = 2 ^ 60 := by norm_num
  have nA := (hdt.weaken (d' := 4) (by omega) le_rfl).mul s4 (by omega) (by norm_num) (by norm_num) (hk2.trans (by norm_num)) b4
  -- the convection
  have c1 := Nr.rnd (x := r - c) (hrc.trans (by norm_num))
  have c2 := (c1.weaken (d' := 1) (by omega) le_rfl).mul hx (by omega) (by norm_num) (by norm_num) (hrc.trans (by norm_num)) (hx2.trans (by norm_num))
  have c3 := half.mul hdt (by omega) (by norm_num) (by norm_num) (by norm_num) (hk2.trans (by norm_num))
  have d1 : 1 / 2 * k ≤ 2 ^ 10 := by linarith
  have c4 := c3.mul (hdx.weaken (d' := 1) (by omega) le_rfl) (by omega) (by norm_num) (by norm_num) (d1.trans (by norm_num)) (hh2.trans (by norm_num))
  have d2 : 1 / 2 * k * h ≤ 2 ^ 30 := by
    calc 1 / 2 * k * h ≤ 2 ^ 10 * 2 ^ 20 := by gcongr
      _ = 2 ^ 30 := by norm_num
  have d3 : |r - c| * (j * h) ≤ 2 ^ 40 := by
    calc |r - c| * (j * h) ≤ 2 ^ 20 * 2 ^ 20 := by gcongr
      _ = 2 ^ 40 := by norm_num
  have nB := c4.mul c2 (by omega) (by norm_num) (by norm_num) (d2.trans (by norm_num)) (d3.trans (by norm_num))
  -- sizes
  have szA : k * (1 / 2 * |σ| * |σ| * (j * h) * (j * h)) ≤ k * (σ ^ 2 * (J : ℝ) ^ 2) * (h * h) / 2 := by
    have e : k * (1 / 2 * |σ| * |σ| * (j * h) * (j * h)) = k * (σ ^ 2 * (j : ℝ) ^ 2) * (h * h) / 2 := by rw [← sq_abs σ]; ring
    rw [e]
    gcongr
  have szB : 1 / 2 * k * h * (|r - c| * (j * h)) ≤ k * (σ ^ 2 * (J : ℝ) ^ 2) * (h * h) / 2 := by
    calc 1 / 2 * k * h * (|r - c| * (j * h)) = k * (|r - c| * j) * (h * h) / 2 := by ring
      _ ≤ k * (σ ^ 2 * (J : ℝ) ^ 2) * (h * h) / 2 := by
        gcongr
        nlinarith
  have szR : 1 / 2 * k * (h * h) * |r| = k * r * (h * h) / 2 := by rw [abs_of_nonneg hr]; ring
  have hQ : k * (σ ^ 2 * (J : ℝ) ^ 2) * (h * h) + k * r * (h * h) ≤ 2 * (h * h) := by
    calc k * (σ ^ 2 * (J : ℝ) ^ 2) * (h * h) + k * r * (h * h) = h * h * (k * (σ ^ 2 * (J : ℝ) ^ 2 + r)) := by ring
      _ ≤ h * h * 2 := by gcongr
      _ = 2 * (h * h) := by ring
  have hQ0 : 0 ≤ k * r * (h * h) := by positivity
  have hQ1 : 0 ≤ k * (σ ^ 2 * (J : ℝ) ^ 2) * (h * h) := by positivity
  have dx2 := hdx.mul hdx (by omega) (by norm_num) (by norm_num) (hh2.trans (by norm_num)) (hh2.trans (by norm_num))
  have d4 : 1 / 2 * k * (h * h) ≤ 2 ^ 50 := by
    calc 1 / 2 * k * (h * h) ≤ 2 ^ 10 * 2 ^ 40 := by gcongr
      _ = 2 ^ 50 := by norm_num
  have g3 := c3.mul dx2 (by omega) (by norm_num) (by norm_num) (d1.trans (by norm_num)) (hhh.trans (by norm_num))
  have nR := g3.mul ((Nr.exact r).neg.weaken (d' := 2) (by omega) le_rfl) (by omega) (by norm_num) (by norm_num) (d4.trans (by norm_num)) (by rw [abs_of_nonneg hr]; exact hr2.trans (by norm_num))
  have vA : k * (1 / 2 * σ * σ * (j * h) * (j * h)) = h * h * (k * (σ ^ 2 * (j : ℝ) ^ 2) / 2) := by ring
  have vB : 1 / 2 * k * h * ((r - c) * (j * h)) = h * h * (k * j * (r - c) / 2) := by ring
  rw [← eA, vA] at nA
  rw [← Dbl.sub_coe, ← eB, vB] at nB
  obtain ⟨mA, hmA⟩ : ∃ mA, mA = k * (1 / 2 * |σ| * |σ| * (j * h) * (j * h)) := ⟨_, rfl⟩
  obtain ⟨mB, hmB⟩ : ∃ mB, mB = 1 / 2 * k * h * (|r - c| * (j * h)) := ⟨_, rfl⟩
  obtain ⟨mR, hmR⟩ : ∃ mR, mR = 1 / 2 * k * (h * h) * |r| := ⟨_, rfl⟩
  have A0 : 0 ≤ mA := by rw [hmA]; positivity
  have B0 : 0 ≤ mB := by rw [hmB]; positivity
  have R0 : 0 ≤ mR := by rw [hmR]; positivity
  rw [← hmA] at nA szA
  rw [← hmB] at nB szB
  rw [← hmR] at nR szR
  -- the coefficients
  have big : ∀ y : ℝ, y ≤ 4 * (h * h) → y ≤ 2 ^ 60 := fun y hy => by
    have : 4 * (h * h) ≤ 4 * 2 ^ 40 := by linarith
    exact (hy.trans this).trans (by norm_num)
  have big' : ∀ y : ℝ, y ≤ 4 * (h * h) → y ≤ 2 ^ 100 := fun y hy => (big y hy).trans (by norm_num)
  have nB' := nB.weaken (d' := 5) (k' := 11) (by omega) (by omega)
  have q1 := nA.sub nB' (by omega) (by norm_num) (big' _ (by linarith)) (big' _ (by linarith))
  have q2 := nA.add nB' (by omega) (by norm_num) (big' _ (by linarith)) (big' _ (by linarith))
  have half6 := half.weaken (d' := 6) (by omega) le_rfl
  have n1 := half6.mul q1 (by omega) (by norm_num) (by norm_num) (by norm_num) (big _ (by linarith))
  have n2 := half6.mul q2 (by omega) (by norm_num) (by norm_num) (by norm_num) (big _ (by linarith))
  have n1' := half6.neg.mul q1 (by omega) (by norm_num) (by norm_num) (by norm_num) (big _ (by linarith))
  have n2' := half6.neg.mul q2 (by omega) (by norm_num) (by norm_num) (by norm_num) (big _ (by linarith))
  have ndx := dx2.neg.weaken (d' := 5) (k' := 11) (by omega) (by omega)
  have t1 := ndx.sub nA (by omega) (by norm_num) (big' _ (by linarith)) (big' _ (by linarith))
  have t2 := ndx.add nA (by omega) (by norm_num) (big' _ (by linarith)) (big' _ (by linarith))
  have nR' := nR.weaken (d' := 6) (k' := 12) (by omega) (by omega)
  have n3 := t1.add nR' (by omega) (by norm_num) (big' _ (by linarith)) (big' _ (by linarith))
  have n3' := t2.sub nR' (by omega) (by norm_num) (big' _ (by linarith)) (big' _ (by linarith))
  rw [← eal, show (1 / 2 : ℝ) * (h * h * (k * (σ ^ 2 * (j : ℝ) ^ 2) / 2) - h * h * (k * j * (r - c) / 2)) = loI σ r c h (k / 2) j by unfold loI; ring] at n1
  rw [← ega, show (1 / 2 : ℝ) * (h * h * (k * (σ ^ 2 * (j : ℝ) ^ 2) / 2) + h * h * (k * j * (r - c) / 2)) = upI σ r c h (k / 2) j by unfold upI; ring] at n2
  rw [← eal', show -(1 / 2 : ℝ) * (h * h * (k * (σ ^ 2 * (j : ℝ) ^ 2) / 2) - h * h * (k * j * (r - c) / 2)) = -loI σ r c h (k / 2) j by unfold loI; ring] at n1'
  rw [← ega', show -(1 / 2 : ℝ) * (h * h * (k * (σ ^ 2 * (j : ℝ) ^ 2) / 2) + h * h * (k * j * (r - c) / 2)) = -upI σ r c h (k / 2) j by unfold upI; ring] at n2'
  rw [← ebe, show -(h * h) - h * h * (k * (σ ^ 2 * (j : ℝ) ^ 2) / 2) + 1 / 2 * k * (h * h) * -r = -dgI σ r h (k / 2) j by unfold dgI; ring] at n3
  rw [← ebe', show -(h * h) + h * h * (k * (σ ^ 2 * (j : ℝ) ^ 2) / 2) - 1 / 2 * k * (h * h) * -r = -exC σ r h k j by unfold exC; ring] at n3'
  -- the right-hand side
  have zero : (lit 0 : Dbl .binary64) = .num ((0 : ℝ) : EReal) := Dbl.lit_zero
  have f0 := (Nr.exact 0).add (Nr.exact 0) (by omega) (by norm_num) (by norm_num) (by norm_num)
  rw [← zero, abs_zero, add_zero] at f0
  have f1 := (half.weaken (d' := 1) (by omega) le_rfl).mul dx2 (by omega) (by norm_num) (by norm_num) (by norm_num) (hhh.trans (by norm_num))
  have d5 : 1 / 2 * (h * h) ≤ 2 ^ 40 := by linarith
  have f2 := f1.mul (hdt.weaken (d' := 2) (by omega) le_rfl) (by omega) (by norm_num) (by norm_num) (d5.trans (by norm_num)) (hk2.trans (by norm_num))
  have d6 : 1 / 2 * (h * h) * k ≤ 2 ^ 50 := by
    calc 1 / 2 * (h * h) * k ≤ 2 ^ 40 * 2 ^ 10 := by gcongr
      _ = 2 ^ 50 := by norm_num
  have f3 := f2.mul (f0.weaken (d' := 3) (by omega) le_rfl) (by omega) (by norm_num) (by norm_num) (d6.trans (by norm_num)) (by norm_num)
  rw [← eb, mul_zero] at f3
  have vb : ∀ z : ℝ, |z| ≤ V → |z| ≤ 2 ^ 60 := fun z hz => hz.trans (hV.trans (by norm_num))
  have ex : ∀ z : ℝ, Nr 7 0 |z| (.num z) z := fun z => (Nr.exact z).weaken (by omega) le_rfl
  have m1 := n1.mul (ex n₀) (by omega) (by norm_num) (by norm_num) (big _ (by linarith)) (vb _ hn₀)
  have m2 := n2.mul (ex n₁) (by omega) (by norm_num) (by norm_num) (big _ (by linarith)) (vb _ hn₁)
  have m3 := n3'.mul (ex o) (by omega) (by norm_num) (by norm_num) (big _ (by linarith)) (vb _ ho)
  have m4 := n1'.mul (ex o₀) (by omega) (by norm_num) (by norm_num) (big _ (by linarith)) (vb _ ho₀)
  have m5 := n2'.mul (ex o₂) (by omega) (by norm_num) (by norm_num) (big _ (by linarith)) (vb _ ho₂)
  have hhV : 0 ≤ h * h * V := by positivity
  have hhp : 0 ≤ h * h := by positivity
  have small : ∀ (a z : ℝ), a ≤ h * h → |z| ≤ V → a * |z| ≤ h * h * V := fun a z ha hz => mul_le_mul ha hz (abs_nonneg _) hhp
  have small2 : ∀ (a z : ℝ), a ≤ 2 * (h * h) → |z| ≤ V → a * |z| ≤ 2 * (h * h * V) := fun a z ha hz => by
    have := mul_le_mul ha hz (abs_nonneg _) (by positivity)
    linarith
  have z1 := small (1 / 2 * (mA + mB)) n₀ (by linarith) hn₀
  have z2 := small (1 / 2 * (mA + mB)) n₁ (by linarith) hn₁
  have z3 := small2 (h * h + mA + mR) o (by linarith) ho
  have z4 := small (1 / 2 * (mA + mB)) o₀ (by linarith) ho₀
  have z5 := small (1 / 2 * (mA + mB)) o₂ (by linarith) ho₂
  have bigV : ∀ y : ℝ, y ≤ 4 * (h * h * V) → y ≤ 2 ^ 100 := fun y hy => by
    have : 4 * (h * h * V) ≤ 4 * (2 ^ 40 * 2 ^ 40) := by gcongr
    exact (hy.trans this).trans (by norm_num)
  have p1 := (f3.weaken (d' := 8) (k' := 15) (by omega) (by omega)).sub m1 (by omega) (by norm_num) (by norm_num) (bigV _ (by linarith))
  have p2 := (f3.weaken (d' := 8) (k' := 15) (by omega) (by omega)).sub m2 (by omega) (by norm_num) (by norm_num) (bigV _ (by linarith))
  have p3 := (f3.weaken (d' := 9) (k' := 16) (by omega) (by omega)).add (m3.weaken (d' := 9) (k' := 16) (by omega) (by omega)) (by omega) (by norm_num) (by norm_num) (bigV _ (by linarith))
  have p1' := p1.add (m3.weaken (d' := 9) (k' := 16) (by omega) (by omega)) (by omega) (by norm_num) (bigV _ (by linarith)) (bigV _ (by linarith))
  have p2' := p2.add (m3.weaken (d' := 9) (k' := 16) (by omega) (by omega)) (by omega) (by norm_num) (bigV _ (by linarith)) (bigV _ (by linarith))
  have w1 := p1'.add (m5.weaken (d' := 10) (k' := 17) (by omega) (by omega)) (by omega) (by norm_num) (bigV _ (by linarith)) (bigV _ (by linarith))
  have w2 := p2'.add (m4.weaken (d' := 10) (k' := 17) (by omega) (by omega)) (by omega) (by norm_num) (bigV _ (by linarith)) (bigV _ (by linarith))
  have p3' := p3.add (m4.weaken (d' := 10) (k' := 17) (by omega) (by omega)) (by omega) (by norm_num) (bigV _ (by linarith)) (bigV _ (by linarith))
  have w3 := p3'.add (m5.weaken (d' := 11) (k' := 18) (by omega) (by omega)) (by omega) (by norm_num) (bigV _ (by linarith)) (bigV _ (by linarith))
  obtain ⟨yal, e1, u1⟩ := n1.error (by omega) (by norm_num)
  obtain ⟨ybe, e2, u2⟩ := n3.error (by omega) (by norm_num)
  obtain ⟨yga, e3, u3⟩ := n2.error (by omega) (by norm_num)
  obtain ⟨y₀, e4, u4⟩ := w1.error (by omega) (by norm_num)
  obtain ⟨y, e5, u5⟩ := w3.error (by omega) (by norm_num)
  obtain ⟨y₁, e6, u6⟩ := w2.error (by omega) (by norm_num)
  have τ1 : (2 : ℝ) ^ (-165 : ℤ) ≤ 8 * (h * h) / 2 ^ 80 := by
    rw [le_div_iff₀ (by norm_num)]
    calc (2 : ℝ) ^ (-165 : ℤ) * 2 ^ 80 ≤ 2 ^ (-60 : ℤ) := by norm_num
      _ ≤ 8 * (h * h) := by linarith
  have τ2 : (2 : ℝ) ^ (-165 : ℤ) ≤ 8 * (h * h) * V / 2 ^ 80 := by
    rw [le_div_iff₀ (by norm_num)]
    calc (2 : ℝ) ^ (-165 : ℤ) * 2 ^ 80 ≤ 2 ^ (-60 : ℤ) * 2 ^ (-20 : ℤ) := by norm_num
      _ ≤ 8 * (h * h) * V := mul_le_mul (hhlow.trans (by linarith)) hV2 (by positivity) (by positivity)
  have fin : ∀ (n : ℕ) (m Q : ℝ), n ≤ 20 → 0 ≤ m → m ≤ Q / 2 → (2 : ℝ) ^ (-165 : ℤ) ≤ Q / 2 ^ 80 → 2 * (n : ℝ) * 2 ^ (-53 : ℤ) * m + 2 ^ (-165 : ℤ) ≤ Q / 2 ^ 48 := by
    intro n m Q hn hm hmQ hQ
    have hn' : (n : ℝ) ≤ 20 := by exact_mod_cast hn
    have : 2 * (n : ℝ) * 2 ^ (-53 : ℤ) * m ≤ 2 * 20 * 2 ^ (-53 : ℤ) * (Q / 2) := by gcongr
    rw [show (2 : ℝ) * 20 * 2 ^ (-53 : ℤ) = 40 / 2 ^ 53 by norm_num] at this
    have hQ0 : 0 ≤ Q := by linarith
    generalize (2 : ℝ) ^ (-165 : ℤ) = τ at *
    linarith
  refine ⟨yal, ybe, yga, y₀, y, y₁, e1, e2, e3, e4, e5, e6, u1.trans (fin _ _ _ (by omega) (by positivity) (by linarith) τ1),
    u2.trans (fin _ _ _ (by omega) (by positivity) (by linarith) τ1), u3.trans (fin _ _ _ (by omega) (by positivity) (by linarith) τ1), ?_, ?_, ?_⟩
  · refine le_trans (le_of_eq ?_) (u4.trans (fin _ _ _ (by omega) (by positivity) (by linarith) τ2))
    congr 1
    ring
  · refine le_trans (le_of_eq ?_) (u5.trans (fin _ _ _ (by omega) (by positivity) (by linarith) τ2))
    congr 1
    ring
  · refine le_trans (le_of_eq ?_) (u6.trans (fin _ _ _ (by omega) (by positivity) (by linarith) τ2))
    congr 1
    ring

end Fdm
end Verif
