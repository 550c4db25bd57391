import Verif.Spec.JumpErrorSpec
import Verif.Props.PathError

/-!
# Property C99: rounding errors along simulated paths with jumps
-/

set_option exponentiation.threshold 3000

namespace Verif
open Spec

/-! ## Sums in floating point -/

theorem pow_le_linear {u : ℝ} (hu : 0 ≤ u) : ∀ n : ℕ, 2 * n * u ≤ 1 → (1 + u) ^ n ≤ 1 + 2 * n * u
  | 0, _ => by simp
  | n + 1, h => by
    push_cast at h
    have h1 : 2 * (n : ℝ) * u ≤ 1 := by nlinarith
    have ih := pow_le_linear hu n h1
    rw [pow_succ]
    push_cast
    nlinarith [mul_le_mul_of_nonneg_right ih (by linarith : 0 ≤ 1 + u)]

section
variable {R : Rounding} (hR : DoubleAccurate R)
include hR

/-- Adding up numbers one after the other. -/
theorem near_fold : ∀ (ds : List ℝ) (i : ℕ) (m a : ℝ) (acc : Dbl R), Near R (2 ^ (-53 : ℤ)) i (2 * i * 2 ^ (-1075 : ℤ)) m acc a → i + ds.length ≤ 2 ^ 33 →
    m + absSum ds ≤ 2 ^ 101 → Near R (2 ^ (-53 : ℤ)) (i + ds.length) (2 * (i + ds.length : ℕ) * 2 ^ (-1075 : ℤ)) (m + absSum ds)
      (ds.foldl (fun y d => y + .num (d : EReal)) acc) (a + ds.sum)
  | [], i, m, a, acc, h, _, _ => by simpa [absSum] using h
  | d :: ds, i, m, a, acc, h, hi, hM => by
    have hu : (0 : ℝ) ≤ 2 ^ (-53 : ℤ) := by positivity
    simp only [List.length_cons] at hi
    have hi' : (i : ℝ) ≤ 2 ^ 33 := by
      have : i ≤ 2 ^ 33 := by omega
      exact_mod_cast this
    have e : absSum (d :: ds) = |d| + absSum ds := by simp [absSum]
    have hs : 0 ≤ absSum ds := List.sum_nonneg (by simp [absSum])
    have hm : 0 ≤ m := (abs_nonneg a).trans h.1
    rw [e] at hM
    have hk : ((1 : ℝ) + 2 ^ (-53 : ℤ)) ^ i ≤ 2 := by
      have b : 2 * (i : ℝ) * 2 ^ (-53 : ℤ) ≤ 1 := by
        calc 2 * (i : ℝ) * 2 ^ (-53 : ℤ) ≤ 2 * 2 ^ 33 * 2 ^ (-53 : ℤ) := by gcongr
          _ ≤ 1 := by norm_num
      exact (pow_le_linear hu i b).trans (by linarith)
    have h1 : Near R (2 ^ (-53 : ℤ)) (i + 1) (2 * (i + 1 : ℕ) * 2 ^ (-1075 : ℤ)) (m + |d|) (acc + .num (d : EReal)) (a + d) := by
      refine h.add hR.round hu hk ((Near.exact d).weaken hu (Nat.zero_le i) le_rfl) ?_ ?_
      · calc 2 * (m + |d|) + (2 * (i : ℝ) * 2 ^ (-1075 : ℤ) + 0) ≤ 2 * 2 ^ 101 + (2 * 2 ^ 33 * 2 ^ (-1075 : ℤ) + 0) := by gcongr; linarith
          _ ≤ 2 ^ (1000 : ℤ) := by norm_num
      · push_cast
        have w : (2 : ℝ) ^ (-53 : ℤ) * (2 * i) ≤ 1 := by
          calc (2 : ℝ) ^ (-53 : ℤ) * (2 * i) ≤ 2 ^ (-53 : ℤ) * (2 * 2 ^ 33) := by gcongr
            _ ≤ 1 := by norm_num
        have w2 : (0 : ℝ) < 2 ^ (-1075 : ℤ) := by positivity
        generalize (2 : ℝ) ^ (-1075 : ℤ) = η at *
        generalize (2 : ℝ) ^ (-53 : ℤ) = u at *
        nlinarith [mul_le_mul_of_nonneg_right w w2.le]
    have := near_fold ds (i + 1) (m + |d|) (a + d) _ h1 (by omega) (by linarith)
    rw [e, List.foldl_cons, List.sum_cons, List.length_cons]
    rw [show i + 1 + ds.length = i + (ds.length + 1) by omega, add_assoc m, add_assoc a] at this
    exact this

/-- Drift and diffusion plus the jumps. -/
theorem near_jumpsum {A x : ℝ} {e : Dbl R} (h : Near R (2 ^ (-53 : ℤ)) 9 (2 ^ (-590 : ℤ)) A e x) (hA : A ≤ 2 ^ 400) {ds : List ℝ} (hl : ds.length ≤ 2 ^ 33)
    (hB : absSum ds ≤ 2 ^ 101) :
    Near R (2 ^ (-53 : ℤ)) 7 (2 ^ (-600 : ℤ)) (2 * A + (ds.length + 2) * absSum ds + 1) (e + ds.foldl (fun y d => y + .num (d : EReal)) (.num (0 : ℝ))) (x + ds.sum) := by
  have hu : (0 : ℝ) ≤ 2 ^ (-53 : ℤ) := by positivity
  have hl' : (ds.length : ℝ) ≤ 2 ^ 33 := by exact_mod_cast hl
  have hB0 : 0 ≤ absSum ds := List.sum_nonneg (by simp [absSum])
  have hA0 : 0 ≤ A := (abs_nonneg x).trans h.1
  have n0 : Near R (2 ^ (-53 : ℤ)) 0 (2 * (0 : ℕ) * 2 ^ (-1075 : ℤ)) 0 (.num (0 : ℝ) : Dbl R) 0 := by
    have := Near.exact (R := R) (u := 2 ^ (-53 : ℤ)) 0
    simpa using this
  have h2 := near_fold hR ds 0 0 0 _ n0 (by omega) (by simpa using hB)
  simp only [zero_add] at h2
  obtain ⟨z1, rfl, -⟩ := h.2
  obtain ⟨z2, e2, -⟩ := h2.2
  rw [e2] at h2 ⊢
  have c1 : ((1 : ℝ) + 2 ^ (-53 : ℤ)) ^ 9 - 1 ≤ 10 * 2 ^ (-53 : ℤ) := by norm_num
  have c7 : 7 * (2 : ℝ) ^ (-53 : ℤ) ≤ (1 + 2 ^ (-53 : ℤ)) ^ 7 - 1 := by norm_num
  have b : 2 * (ds.length : ℝ) * 2 ^ (-53 : ℤ) ≤ 1 := by
    calc 2 * (ds.length : ℝ) * 2 ^ (-53 : ℤ) ≤ 2 * 2 ^ 33 * 2 ^ (-53 : ℤ) := by gcongr
      _ ≤ 1 := by norm_num
  have c2 := pow_le_linear hu ds.length b
  obtain ⟨a1, b1⟩ := h.size_le (by norm_num)
  obtain ⟨a2, b2⟩ := h2.size_le (by linarith)
  have t2 : 2 * (ds.length : ℝ) * 2 ^ (-1075 : ℤ) ≤ 2 ^ (-600 : ℤ) := by
    calc 2 * (ds.length : ℝ) * 2 ^ (-1075 : ℤ) ≤ 2 * 2 ^ 33 * 2 ^ (-1075 : ℤ) := by gcongr
      _ ≤ 2 ^ (-600 : ℤ) := by norm_num
  have b1' : |z1 - x| ≤ 10 * 2 ^ (-53 : ℤ) * A + 2 ^ (-590 : ℤ) := b1.trans (by gcongr)
  have b2' : |z2 - ds.sum| ≤ 2 * ds.length * 2 ^ (-53 : ℤ) * absSum ds + 2 ^ (-600 : ℤ) := by
    refine b2.trans (add_le_add (mul_le_mul_of_nonneg_right ?_ hB0) t2)
    linarith
  have a2' : |z2| ≤ 2 * absSum ds + 2 ^ (-600 : ℤ) := a2.trans (by gcongr)
  have hsz := abs_add_le z1 z2
  obtain ⟨y', ey, hy⟩ := hR.round (z1 + z2) (by
    refine hsz.trans ?_
    calc |z1| + |z2| ≤ (2 * 2 ^ 400 + 2 ^ (-590 : ℤ)) + (2 * 2 ^ 101 + 2 ^ (-600 : ℤ)) :=
          add_le_add (a1.trans (by gcongr)) (a2'.trans (by gcongr))
      _ ≤ 2 ^ (1000 : ℤ) := by norm_num)
  refine ⟨?_, y', by rw [Dbl.add_coe, ey], ?_⟩
  · have := abs_add_le x ds.sum
    have := h.1
    have := h2.1
    nlinarith
  · have d1 := abs_sub_le y' (z1 + z2) (x + ds.sum)
    have d2 := abs_add_le (z1 - x) (z2 - ds.sum)
    rw [show z1 - x + (z2 - ds.sum) = z1 + z2 - (x + ds.sum) by ring] at d2
    have c7' := mul_le_mul_of_nonneg_right c7 (by positivity : 0 ≤ 2 * A + (ds.length + 2) * absSum ds + 1)
    have w1 : (2 : ℝ) ^ (-590 : ℤ) + 2 ^ (-600 : ℤ) + 2 ^ (-53 : ℤ) * (2 ^ (-590 : ℤ) + 2 ^ (-600 : ℤ)) + 2 ^ (-1075 : ℤ) ≤ 2 ^ (-53 : ℤ) := by norm_num
    have w2 : (0 : ℝ) ≤ 2 ^ (-600 : ℤ) := by positivity
    have f1 := mul_le_mul_of_nonneg_left (hsz.trans (add_le_add a1 a2')) hu
    have g1 : 0 ≤ (2 : ℝ) ^ (-53 : ℤ) * A := by positivity
    have g2 : 0 ≤ (2 : ℝ) ^ (-53 : ℤ) * absSum ds := by positivity
    have g3 : 0 ≤ (ds.length : ℝ) * (2 ^ (-53 : ℤ) * absSum ds) := by positivity
    generalize ((1 : ℝ) + 2 ^ (-53 : ℤ)) ^ 7 - 1 = k7 at *
    generalize (2 : ℝ) ^ (-53 : ℤ) = u at *
    generalize (2 : ℝ) ^ (-590 : ℤ) = t1 at *
    generalize (2 : ℝ) ^ (-600 : ℤ) = t2 at *
    generalize (2 : ℝ) ^ (-1075 : ℤ) = t3 at *
    nlinarith

end

/-! ## The loop over the dates -/

/-- The steps of a loop that multiplies the price by exponentials of the given exponents, with the given sizes. -/
inductive ExpSteps {G : Type} {R : Rounding} (step : Dbl R → Eff G (Dbl R × Dbl R)) : G → List (ℝ × ℝ) → G → Prop
  | nil (s : G) : ExpSteps step s [] s
  | cons {s s₁ s₂ : G} {e : Dbl R} {x m : ℝ} {l : List (ℝ × ℝ)} (h : ∀ y : ℝ, step (.num y) s = (.ok (.num y * Fl.exp e, .num y * Fl.exp e), s₁))
      (hx : Near R (2 ^ (-53 : ℤ)) 7 (2 ^ (-600 : ℤ)) m e x) (t : ExpSteps step s₁ l s₂) : ExpSteps step s ((x, m) :: l) s₂

section
variable {R : Rounding} (hR : DoubleAccurate R) {G : Type}
include hR

theorem exp_loop {step : Dbl R → Eff G (Dbl R × Dbl R)} : ∀ (l : List (ℝ × ℝ)) (y P E : ℝ) (s s' : G), ExpSteps step s l s' → 0 < y → 0 < P → |Real.log y - Real.log P| ≤ E →
    |Real.log P| ≤ 300 → (∀ j < l.length, |Real.log P + ((l.map Prod.fst).take (j + 1)).sum| ≤ 300) →
    (∀ j < l.length, E + 2 ^ (-50 : ℤ) * expWork (l.map Prod.snd) j ≤ 1) →
    ∃ ps : List ℝ, Eff.unfoldN step l.length (.num y) s = (.ok (ps.map fun x : ℝ => .num x), s') ∧ ps.length = l.length ∧ ∀ j < l.length, 0 < ps.getD j 0 ∧
      |Real.log (ps.getD j 0) - (Real.log P + ((l.map Prod.fst).take (j + 1)).sum)| ≤ E + 2 ^ (-50 : ℤ) * expWork (l.map Prod.snd) j
  | [], y, P, E, s, s', hD, _, _, _, _, _, _ => by
    cases hD
    exact ⟨[], rfl, rfl, fun j hj => absurd hj (by simp)⟩
  | (x, m) :: l, y, P, E, s, s', hD, hy, hP, hE, hP1, hp, hw => by
    cases hD with
    | @cons _ s1 _ e _ _ _ h1 hx h2 =>
    have hpos : 0 < P * Real.exp x := mul_pos hP (Real.exp_pos _)
    have e0 : Real.log (P * Real.exp x) = Real.log P + x := by rw [Real.log_mul hP.ne' (Real.exp_pos _).ne', Real.log_exp]
    have w0 : expWork (((x, m) :: l).map Prod.snd) 0 = 1 + m := by simp [expWork]
    have ws : ∀ j, expWork (((x, m) :: l).map Prod.snd) (j + 1) = (1 + m) + expWork (l.map Prod.snd) j := fun j => by simp [expWork]
    have ss : ∀ j, ((((x, m) :: l).map Prod.fst).take (j + 1 + 1)).sum = x + ((l.map Prod.fst).take (j + 1)).sum := fun j => by simp
    have q0 := hp 0 (by simp)
    simp only [List.map_cons, zero_add, List.take_succ_cons, List.take_zero, List.sum_cons, List.sum_nil, add_zero] at q0
    have q1 := hw 0 (by simp)
    rw [w0] at q1
    obtain ⟨y', ey, hy0, hy1⟩ := price_step hR hy hP hE hx hP1 q0 q1
    rw [← e0] at hy1
    obtain ⟨ps, hps, hl, hj⟩ := exp_loop l y' _ _ s1 s' h2 hy0 hpos hy1 (by rw [e0]; exact q0)
      (fun j hj => by rw [e0, add_assoc, ← ss]; exact hp (j + 1) (by simpa using hj))
      (fun j hj => by rw [add_assoc, ← mul_add, ← ws]; exact hw (j + 1) (by simpa using hj))
    refine ⟨y' :: ps, ?_, by simp [hl], fun j hj' => ?_⟩
    · have hb := h1 y
      rw [ey] at hb
      show Eff.unfoldN _ (l.length + 1) _ _ = _
      unfold Eff.unfoldN
      rw [Eff.bind_of_ok hb, Eff.bind_of_ok hps]
      rfl
    · cases j with
      | zero =>
        rw [w0]
        rw [e0] at hy1
        exact ⟨by simpa using hy0, by simpa using hy1⟩
      | succ j =>
        obtain ⟨a, b⟩ := hj j (by simpa using hj')
        rw [ws, ss, mul_add, ← add_assoc, ← add_assoc]
        rw [e0] at b
        exact ⟨by simpa using a, by simpa using b⟩

/-- From the logarithms to the prices. -/
theorem exp_path {step : Dbl R → Eff G (Dbl R × Dbl R)} {l : List (ℝ × ℝ)} {S : ℝ} {s s' : G} (hD : ExpSteps step s l s')
    (hm : ModeratePath S (l.map Prod.fst) (l.map Prod.snd)) (h0 : ∀ x ∈ l, 0 ≤ x.2) :
    ∃ ps : List ℝ, Eff.unfoldN step l.length (.num S) s = (.ok (ps.map fun x : ℝ => .num x), s') ∧ ps.length = l.length ∧ ∀ j < l.length, 0 < ps.getD j 0 ∧
      |ps.getD j 0 - expPath S (l.map Prod.fst) j| ≤ 2 ^ (-49 : ℤ) * expWork (l.map Prod.snd) j * expPath S (l.map Prod.fst) j := by
  have hS : 0 < S := (Real.exp_pos _).trans_le hm.start.1
  have hlog : ∀ {x : ℝ}, Real.exp (-300) ≤ x ∧ x ≤ Real.exp 300 → |Real.log x| ≤ 300 := by
    intro x hx
    have h0 : 0 < x := (Real.exp_pos _).trans_le hx.1
    rw [abs_le]
    exact ⟨(Real.le_log_iff_exp_le h0).mpr hx.1, (Real.log_le_iff_le_exp h0).mpr hx.2⟩
  have lP : ∀ j, Real.log (expPath S (l.map Prod.fst) j) = Real.log S + ((l.map Prod.fst).take (j + 1)).sum := fun j => by
    rw [expPath, Real.log_mul hS.ne' (Real.exp_pos _).ne', Real.log_exp]
  have hnn : ∀ x ∈ (l.map Prod.snd).map (1 + ·), (0 : ℝ) ≤ x := by
    intro x hx
    simp only [List.mem_map] at hx
    obtain ⟨b, ⟨c, hc, rfl⟩, rfl⟩ := hx
    have := h0 c hc
    linarith
  have hw0 : ∀ j, 0 ≤ expWork (l.map Prod.snd) j := fun j => List.sum_nonneg fun x hx => hnn x (List.mem_of_mem_take hx)
  have hwork : ∀ j < l.length, expWork (l.map Prod.snd) j ≤ 2 ^ 40 := by
    intro j hj
    refine le_trans ?_ hm.work
    unfold expWork
    have e : ((l.map Prod.snd).map (1 + ·)).take ((l.map Prod.snd).length - 1 + 1) = (l.map Prod.snd).map (1 + ·) := by
      rw [List.take_of_length_le]
      simp
      omega
    rw [e]
    exact (List.take_sublist _ _).sum_le_sum hnn
  obtain ⟨ps, h1, h2, h3⟩ := exp_loop hR l S S 0 s s' hD hS hS (by simp) (hlog hm.start) (fun j hj => by rw [← lP]; exact hlog (hm.prices j (by simpa using hj)))
    (fun j hj => by
      have := mul_le_mul_of_nonneg_left (hwork j hj) (by positivity : (0 : ℝ) ≤ 2 ^ (-50 : ℤ))
      refine (zero_add _).le.trans (this.trans (by norm_num)))
  refine ⟨ps, h1, h2, fun j hj => ?_⟩
  obtain ⟨a, b⟩ := h3 j hj
  rw [← lP] at b
  refine ⟨a, ?_⟩
  have hP : 0 < expPath S (l.map Prod.fst) j := mul_pos hS (Real.exp_pos _)
  have hw1 := hwork j hj
  have hw2 := hw0 j
  generalize expPath S (l.map Prod.fst) j = P at *
  generalize expWork (l.map Prod.snd) j = W at *
  generalize ps.getD j 0 = p at *
  rw [zero_add] at b
  have c1 : (2 : ℝ) ^ (-49 : ℤ) = 2 * 2 ^ (-50 : ℤ) := by norm_num
  have c2 : (2 : ℝ) ^ (-50 : ℤ) * W ≤ 1 / 2 := (mul_le_mul_of_nonneg_left hw1 (by positivity)).trans (by norm_num)
  have c3 : 0 ≤ (2 : ℝ) ^ (-50 : ℤ) * W := by positivity
  rw [c1, mul_assoc 2]
  generalize (2 : ℝ) ^ (-50 : ℤ) * W = D at *
  obtain ⟨b1, b2⟩ := abs_le.mp b
  have e1 : p = P * Real.exp (Real.log p - Real.log P) := by
    rw [Real.exp_sub, Real.exp_log a, Real.exp_log hP]
    field_simp
  have u1 : Real.exp (Real.log p - Real.log P) ≤ 1 + 2 * D := (Real.exp_le_exp.mpr b2).trans (exp_le_of_small c3 c2)
  have u2 : 1 - 2 * D ≤ Real.exp (Real.log p - Real.log P) := by
    have := Real.add_one_le_exp (Real.log p - Real.log P)
    linarith
  rw [abs_le]
  constructor <;> nlinarith

end

/-! ## The models -/

theorem absSum_nonneg (ds : List ℝ) : 0 ≤ absSum ds := List.sum_nonneg (by simp [absSum])

/-- The size of each exponent is bounded by the total. -/
theorem size_of_work {α : Type} {S : ℝ} {f w : α → ℝ} {l : List α} (hm : ModeratePath S (l.map f) (l.map w)) (h0 : ∀ x, 0 ≤ w x) {x : α} (hx : x ∈ l) : w x ≤ 2 ^ 40 := by
  have h1 := hm.work
  unfold expWork at h1
  have e : ((l.map w).map (1 + ·)).take ((l.map w).length - 1 + 1) = (l.map w).map (1 + ·) := by
    rw [List.take_of_length_le]
    simp
    omega
  rw [e] at h1
  have h2 : 1 + w x ∈ (l.map w).map (1 + ·) := by
    simp only [List.mem_map]
    exact ⟨w x, ⟨x, hx, rfl⟩, rfl⟩
  have h3 := List.single_le_sum (l := (l.map w).map (1 + ·)) (by
    intro y hy
    simp only [List.mem_map] at hy
    obtain ⟨b, ⟨c, -, rfl⟩, rfl⟩ := hy
    have := h0 c
    linarith) _ h2
  linarith

theorem dblToInt_natCast {R : Rounding} {n : ℕ} (hn : n ≤ INT_MAX) : FlInt.toInt (.num ((n : ℝ) : EReal) : Dbl R) = some (n : ℤ) := by
  show truncInt (n : ℝ) = _
  unfold truncInt
  rw [if_pos (Nat.cast_nonneg n), Int.floor_natCast]
  unfold INT_MAX at hn
  rw [if_pos (by constructor <;> omega)]

theorem drawCount_eq {R : Rounding} {G : Type} {g : Gen G (Dbl R)} {d : Dist (Dbl R)} {s s' : G} {n : ℕ} (hn : n ≤ INT_MAX) (h : g.draw d s = (.ok (.num (n : ℝ)), s')) :
    Sim.drawCount g d s = (.ok n, s') := by
  unfold Sim.drawCount Sim.draw
  rw [Eff.bind_of_ok h, dblToInt_natCast hn]
  rfl

theorem mertonJumps_eq {R : Rounding} {G : Type} {g : Gen G (Dbl R)} {d : Dist (Dbl R)} : ∀ {js : List ℝ} {s s' : G} (_ : Draws (g.draw d) s (js.map fun x : ℝ => .num x) s') (a : Dbl R),
    Eff.forN (Sim.mertonJump g d) js.length a s = (.ok (js.foldl (fun y x => y + .num (x : EReal)) a), s')
  | [], s, s', h, a => by
    cases h
    rfl
  | j :: js, s, s', h, a => by
    cases h with
    | cons h1 t =>
    show Eff.forN _ (js.length + 1) _ _ = _
    unfold Eff.forN
    rw [Eff.bind_of_ok (show Sim.mertonJump g d a s = (.ok (a + .num (j : EReal)), _) from by
      unfold Sim.mertonJump Sim.draw
      rw [Eff.bind_of_ok h1]
      rfl), mertonJumps_eq t]
    rfl

theorem kouJumps_eq {R : Rounding} {G : Type} {g : Gen G (Dbl R)} {p : ℝ} {dU dUp dDown : Dist (Dbl R)} {n : ℕ} {ds : List ℝ} {s s' : G}
    (h : KouTerms g p dU dUp dDown n s ds s') : ∀ a : Dbl R,
    Eff.forN (Sim.kouJump g (.num p) dU dUp dDown) n a s = (.ok (ds.foldl (fun y x => y + .num (x : EReal)) a), s') ∧ ds.length ≤ 2 * n := by
  induction h with
  | nil => exact fun a => ⟨rfl, le_rfl⟩
  | @up s s1 s2 s3 s4 u x y n l hu hp ha hb _ ih =>
    intro a
    obtain ⟨i1, i2⟩ := ih (a + .num (x : EReal) + .num ((-y : ℝ) : EReal))
    refine ⟨?_, by simp only [List.length_cons]; omega⟩
    unfold Eff.forN
    rw [Eff.bind_of_ok (show Sim.kouJump g (.num p) dU dUp dDown a s = (.ok (a + .num (x : EReal) + .num ((-y : ℝ) : EReal)), s3) from by
      unfold Sim.kouJump Sim.draw
      rw [Eff.bind_of_ok hu, if_pos (by rw [Dbl.lt_num]; exact_mod_cast hp)]
      rw [Eff.bind_of_ok (show (g.draw dUp >>= fun up => pure (a + up) : Eff G (Dbl R)) s1 = (.ok (a + .num (x : EReal)), s2) from by rw [Eff.bind_of_ok ha]; rfl),
        Eff.bind_of_ok hb]
      rfl), i1]
    rfl
  | @down s s1 s3 s4 u y n l hu hp hb _ ih =>
    intro a
    obtain ⟨i1, i2⟩ := ih (a + .num ((-y : ℝ) : EReal))
    refine ⟨?_, by simp only [List.length_cons]; omega⟩
    unfold Eff.forN
    rw [Eff.bind_of_ok (show Sim.kouJump g (.num p) dU dUp dDown a s = (.ok (a + .num ((-y : ℝ) : EReal)), s3) from by
      unfold Sim.kouJump Sim.draw
      rw [Eff.bind_of_ok hu, if_neg (by rw [Dbl.lt_num]; exact_mod_cast hp)]
      rw [Eff.bind_of_ok (show (pure a : Eff G (Dbl R)) s1 = (.ok a, s1) from rfl), Eff.bind_of_ok hb]
      rfl), i1]
    rfl

section
variable {R : Rounding} (hR : DoubleAccurate R) {G : Type} (g : Gen G (Dbl R))
include hR

/-- Paths of Merton's model: the model with the stored parameters, for the normal numbers, numbers of jumps and jumps that the generator delivers. -/
theorem C99_merton {S sigma r T lambda muJ sigmaJ : ℝ} {q : Option ℝ} {dP dJ : Dist (Dbl R)} {l : List (ℝ × List ℝ)} {s s' : G}
    (hP : Dist.mkPoisson (.num lambda * Sim.dt (.num T) l.length) = .ok dP) (hJ : Dist.mkNormal (.num muJ) (.num sigmaJ) = .ok dJ)
    (hD : MertonDraws g dP dJ (g.newDist dJ (g.newDist dP (g.newDist .stdNormal s))) l s') (hn : l.length ≤ INT_MAX)
    (hk : ModerateMarket sigma r (q.getD 0) (T / l.length)) (hz : ∀ x ∈ l, |x.1| ≤ 2 ^ 100)
    (hm : ModeratePath S (l.map (mertonExponent sigma r (q.getD 0) (T / l.length))) (l.map (mertonSize sigma r (q.getD 0) (T / l.length)))) :
    ∃ ps : List ℝ, Sim.prices g l.length ⟨.num S, .num sigma, q.map fun x : ℝ => .num x, .num r⟩ (.num T) (.merton (.num lambda) (.num muJ) (.num sigmaJ)) s =
        (.ok (ps.map fun x : ℝ => .num x), s') ∧ ps.length = l.length ∧ ∀ j < l.length, 0 < ps.getD j 0 ∧
      |ps.getD j 0 - expPath S (l.map (mertonExponent sigma r (q.getD 0) (T / l.length))) j| ≤
        2 ^ (-49 : ℤ) * expWork (l.map (mertonSize sigma r (q.getD 0) (T / l.length))) j * expPath S (l.map (mertonExponent sigma r (q.getD 0) (T / l.length))) j := by
  have hc : (View.c ⟨.num S, .num sigma, q.map fun x : ℝ => .num x, .num r⟩ : Dbl R) = .num (q.getD 0 : ℝ) := by cases q <;> simp [View.c]
  have hu : (0 : ℝ) ≤ 2 ^ (-53 : ℤ) := by positivity
  generalize q.getD 0 = c at *
  have hh0 : 0 ≤ T / l.length := le_trans (by positivity) hk.step.1
  have w0 : ∀ x, 0 ≤ mertonSize sigma r c (T / l.length) x := fun x => by
    have := absSum_nonneg x.2
    unfold mertonSize
    positivity
  have steps : ∀ (l' : List (ℝ × List ℝ)) (s1 : G), (∀ x ∈ l', x ∈ l) → MertonDraws g dP dJ s1 l' s' →
      ExpSteps (Sim.mertonStep g ⟨.num S, .num sigma, q.map fun x : ℝ => .num x, .num r⟩ (Sim.dt (.num T) l.length) .stdNormal dP dJ) s1
        (l'.map fun x => (mertonExponent sigma r c (T / l.length) x, mertonSize sigma r c (T / l.length) x)) s' := by
    intro l'
    induction l' with
    | nil => intro s1 _ h; cases h; exact .nil _
    | cons x l' ih =>
      intro s1 hl h
      cases h with
      | @cons _ s2 s3 s4 _ z js _ hz1 hjn hcn hj t =>
      have hx := hl (z, js) (by simp)
      have hsz := size_of_work hm w0 hx
      have hB := absSum_nonneg js
      have near := (exponent_error hR (hn.trans (by norm_num [INT_MAX])) hk.vol hk.rate hk.coupon hk.step.1 hk.step.2 (hz _ hx)).weaken hu (by norm_num : 7 ≤ 9)
        (by norm_num : (2 : ℝ) ^ (-600 : ℤ) ≤ 2 ^ (-590 : ℤ))
      have hA0 := (abs_nonneg _).trans near.1
      have hNB : 0 ≤ ((js.length : ℝ) + 2) * absSum js := by positivity
      unfold mertonSize at hsz
      have near2 := near_jumpsum hR near (by
        have : (2 : ℝ) ^ 40 ≤ 2 ^ 400 := by norm_num
        linarith) (ds := js) (hjn.trans (by norm_num [INT_MAX])) (by
        have : (2 : ℝ) ^ 40 ≤ 2 ^ 101 := by norm_num
        have : 0 ≤ (js.length : ℝ) * absSum js := by positivity
        nlinarith)
      refine .cons (fun y => ?_) near2 (ih _ (fun x hx => hl x (by simp [hx])) t)
      unfold Sim.mertonStep Sim.draw
      rw [Eff.bind_of_ok hz1, Eff.bind_of_ok (drawCount_eq hjn hcn), Eff.bind_of_ok (mertonJumps_eq hj _)]
      show (Res.ok _, s4) = _
      unfold Sim.mertonUpdate
      rw [hc, Dbl.lit_zero]
      rfl
  obtain ⟨ps, h1, h2, h3⟩ := exp_path hR (steps l _ (fun _ h => h) hD) (S := S) (by simpa [Function.comp_def] using hm) (by
    intro x hx
    simp only [List.mem_map] at hx
    obtain ⟨y, -, rfl⟩ := hx
    exact w0 y)
  simp only [List.length_map, List.map_map, Function.comp_def] at h1 h2 h3
  refine ⟨ps, ?_, h2, h3⟩
  show Sim.merton g l.length _ _ _ _ (.num T) s = _
  unfold Sim.merton
  rw [Eff.bind_of_ok (show Sim.newDist g (.ok .stdNormal) s = (.ok .stdNormal, g.newDist .stdNormal s) from rfl), hP,
    Eff.bind_of_ok (show Sim.newDist g (.ok dP) _ = (.ok dP, g.newDist dP (g.newDist .stdNormal s)) from rfl), hJ,
    Eff.bind_of_ok (show Sim.newDist g (.ok dJ) _ = (.ok dJ, g.newDist dJ (g.newDist dP (g.newDist .stdNormal s))) from rfl), Eff.unfoldInt_of_le hn]
  exact h1

/-- The exponent of one step of Kou's model, without jumps. -/
theorem kou_exponent_error {sigma r q T z lambda muJ : ℝ} {n : ℕ} (hn : n ≤ 2 ^ 53) (hk : ModerateMarket sigma r q (T / n)) (hl : |lambda| ≤ 2 ^ 100) (hmu : |muJ| ≤ 2 ^ 100)
    (hz : |z| ≤ 2 ^ 100) :
    Near R (2 ^ (-53 : ℤ)) 9 (2 ^ (-590 : ℤ)) ((|r| + |q| + sigma ^ 2 / 2 + |lambda| * (|muJ| + 1)) * (T / n) + |sigma| * Real.sqrt (T / n) * |z|)
      ((.num r - .num q - lit (1 / 2) * .num sigma * .num sigma - .num lambda * (.num muJ - lit 1)) * Sim.dt (.num T) n + .num sigma * Fl.sqrt (Sim.dt (.num T) n) * .num z)
      ((r - q - sigma ^ 2 / 2 - lambda * (muJ - 1)) * (T / n) + sigma * Real.sqrt (T / n) * z) := by
  have A := hR.round
  have hu : (0 : ℝ) ≤ 2 ^ (-53 : ℤ) := by positivity
  have hd0 : 0 < T / n := lt_of_lt_of_le (by positivity) hk.step.1
  obtain ⟨dt1, d1, f3⟩ := exponent_parts hR hn hk.vol hk.rate hk.coupon hk.step.1 hk.step.2 hz
  have hs := hk.vol
  have hr := hk.rate
  have hq := hk.coupon
  have hd2 := hk.step.2
  have hq2 : Real.sqrt (T / n) ≤ 2 ^ 100 := by
    rw [Real.sqrt_le_left (by positivity)]
    exact hd2.trans (by norm_num)
  have k0 : ((1 : ℝ) + 2 ^ (-53 : ℤ)) ^ 0 ≤ 2 := by norm_num
  have k1 : ((1 : ℝ) + 2 ^ (-53 : ℤ)) ^ 1 ≤ 2 := by norm_num
  have k4 : ((1 : ℝ) + 2 ^ (-53 : ℤ)) ^ 4 ≤ 2 := by norm_num
  have k5 : ((1 : ℝ) + 2 ^ (-53 : ℤ)) ^ 5 ≤ 2 := by norm_num
  have k7 : ((1 : ℝ) + 2 ^ (-53 : ℤ)) ^ 7 ≤ 2 := by norm_num
  have one : Near R (2 ^ (-53 : ℤ)) 0 0 1 (lit 1) 1 := by
    have e : (lit 1 : Dbl R) = .num (1 : ℝ) := by
      have := hR.int 1 (by norm_num)
      rw [Dbl.lit_def]
      push_cast at this ⊢
      rw [this]
    rw [e]
    have := Near.exact (R := R) (u := 2 ^ (-53 : ℤ)) 1
    rwa [abs_one] at this
  have j1 : Near R (2 ^ (-53 : ℤ)) 1 (2 ^ (-1075 : ℤ)) (|muJ| + 1) (.num muJ - lit 1) (muJ - 1) := by
    refine (Near.exact muJ).sub A hu k0 one ?_ (by norm_num)
    calc 2 * (|muJ| + 1) + ((0 : ℝ) + 0) ≤ 2 * (2 ^ 100 + 1) + ((0 : ℝ) + 0) := by gcongr
      _ ≤ 2 ^ (1000 : ℤ) := by norm_num
  have j2 : Near R (2 ^ (-53 : ℤ)) 2 (2 ^ (-970 : ℤ)) (|lambda| * (|muJ| + 1)) (.num lambda * (.num muJ - lit 1)) (lambda * (muJ - 1)) := by
    refine (Near.exact lambda).mul A hu k0 k1 j1 le_rfl (by positivity) ?_ ?_
    · calc (2 * |lambda| + 0) * (2 * (|muJ| + 1) + (2 : ℝ) ^ (-1075 : ℤ)) ≤ (2 * 2 ^ 100 + 0) * (2 * (2 ^ 100 + 1) + (2 : ℝ) ^ (-1075 : ℤ)) := by gcongr
        _ ≤ 2 ^ (1000 : ℤ) := by norm_num
    · calc (1 + (2 : ℝ) ^ (-53 : ℤ)) * (2 * (0 * (|muJ| + 1) + |lambda| * 2 ^ (-1075 : ℤ)) + 0 * 2 ^ (-1075 : ℤ)) + 2 ^ (-1075 : ℤ)
          ≤ (1 + (2 : ℝ) ^ (-53 : ℤ)) * (2 * (0 * (2 ^ 100 + 1) + 2 ^ 100 * 2 ^ (-1075 : ℤ)) + 0 * 2 ^ (-1075 : ℤ)) + 2 ^ (-1075 : ℤ) := by gcongr
        _ ≤ 2 ^ (-970 : ℤ) := by norm_num
  have d2 : Near R (2 ^ (-53 : ℤ)) 5 (2 ^ (-840 : ℤ)) (|r| + |q| + 1 / 2 * |sigma| * |sigma| + |lambda| * (|muJ| + 1))
      (.num r - .num q - lit (1 / 2) * .num sigma * .num sigma - .num lambda * (.num muJ - lit 1)) (r - q - 1 / 2 * sigma * sigma - lambda * (muJ - 1)) := by
    refine d1.sub A hu k4 (j2.weaken hu (by norm_num : 2 ≤ 4) le_rfl) ?_ (by norm_num)
    calc 2 * (|r| + |q| + 1 / 2 * |sigma| * |sigma| + |lambda| * (|muJ| + 1)) + ((2 : ℝ) ^ (-850 : ℤ) + 2 ^ (-970 : ℤ))
        ≤ 2 * (2 ^ 100 + 2 ^ 100 + 1 / 2 * 2 ^ 100 * 2 ^ 100 + 2 ^ 100 * (2 ^ 100 + 1)) + ((2 : ℝ) ^ (-850 : ℤ) + 2 ^ (-970 : ℤ)) := by gcongr
      _ ≤ 2 ^ (1000 : ℤ) := by norm_num
  have d3 : Near R (2 ^ (-53 : ℤ)) 7 (2 ^ (-700 : ℤ)) ((|r| + |q| + 1 / 2 * |sigma| * |sigma| + |lambda| * (|muJ| + 1)) * (T / n))
      ((.num r - .num q - lit (1 / 2) * .num sigma * .num sigma - .num lambda * (.num muJ - lit 1)) * Sim.dt (.num T) n)
      ((r - q - 1 / 2 * sigma * sigma - lambda * (muJ - 1)) * (T / n)) := by
    refine d2.mul A hu k5 k1 dt1 (by positivity) (by positivity) ?_ ?_
    · calc (2 * (|r| + |q| + 1 / 2 * |sigma| * |sigma| + |lambda| * (|muJ| + 1)) + (2 : ℝ) ^ (-840 : ℤ)) * (2 * (T / n) + 2 ^ (-1075 : ℤ))
          ≤ (2 * (2 ^ 100 + 2 ^ 100 + 1 / 2 * 2 ^ 100 * 2 ^ 100 + 2 ^ 100 * (2 ^ 100 + 1)) + (2 : ℝ) ^ (-840 : ℤ)) * (2 * 2 ^ 100 + 2 ^ (-1075 : ℤ)) := by gcongr
        _ ≤ 2 ^ (1000 : ℤ) := by norm_num
    · calc (1 + (2 : ℝ) ^ (-53 : ℤ)) * (2 * (2 ^ (-840 : ℤ) * (T / n) + (|r| + |q| + 1 / 2 * |sigma| * |sigma| + |lambda| * (|muJ| + 1)) * 2 ^ (-1075 : ℤ)) +
            2 ^ (-840 : ℤ) * 2 ^ (-1075 : ℤ)) + 2 ^ (-1075 : ℤ)
          ≤ (1 + (2 : ℝ) ^ (-53 : ℤ)) * (2 * (2 ^ (-840 : ℤ) * 2 ^ 100 + (2 ^ 100 + 2 ^ 100 + 1 / 2 * 2 ^ 100 * 2 ^ 100 + 2 ^ 100 * (2 ^ 100 + 1)) * 2 ^ (-1075 : ℤ)) +
            2 ^ (-840 : ℤ) * 2 ^ (-1075 : ℤ)) + 2 ^ (-1075 : ℤ) := by gcongr
        _ ≤ 2 ^ (-700 : ℤ) := by norm_num
  have hsq : |sigma| * |sigma| = sigma ^ 2 := by rw [← abs_mul, ← sq, abs_of_nonneg (sq_nonneg _)]
  have := (d3.add A hu k7 (f3.weaken hu (by norm_num : 4 ≤ 7) le_rfl) (t := 2 ^ (-590 : ℤ)) ?_ (by norm_num)).weaken hu (by norm_num : 8 ≤ 9) le_rfl
  · convert this using 1
    · rw [mul_assoc (1 / 2) |sigma|, hsq]; ring
    · ring
  · calc 2 * ((|r| + |q| + 1 / 2 * |sigma| * |sigma| + |lambda| * (|muJ| + 1)) * (T / n) + |sigma| * Real.sqrt (T / n) * |z|) + ((2 : ℝ) ^ (-700 : ℤ) + 2 ^ (-700 : ℤ))
        ≤ 2 * ((2 ^ 100 + 2 ^ 100 + 1 / 2 * 2 ^ 100 * 2 ^ 100 + 2 ^ 100 * (2 ^ 100 + 1)) * 2 ^ 100 + 2 ^ 100 * 2 ^ 100 * 2 ^ 100) +
          ((2 : ℝ) ^ (-700 : ℤ) + 2 ^ (-700 : ℤ)) := by gcongr
      _ ≤ 2 ^ (1000 : ℤ) := by norm_num

/-- Paths of Kou's model. -/
theorem C99_kou {S sigma r T lambda p eta1 eta2 muJ : ℝ} {q : Option ℝ} {dP dU dUp dDown : Dist (Dbl R)} {l : List (ℝ × List ℝ)} {s s' : G}
    (hP : Dist.mkPoisson (.num lambda * Sim.dt (.num T) l.length) = .ok dP) (hU : Dist.mkUniform (lit 0) (lit 1) = .ok dU)
    (hUp : Dist.mkExponential (.num eta1) = .ok dUp) (hDown : Dist.mkExponential (.num eta2) = .ok dDown)
    (hD : KouDraws g p dP dU dUp dDown (g.newDist dDown (g.newDist dUp (g.newDist dU (g.newDist dP (g.newDist .stdNormal s))))) l s') (hn : l.length ≤ INT_MAX)
    (hk : ModerateMarket sigma r (q.getD 0) (T / l.length)) (hla : |lambda| ≤ 2 ^ 100) (hmu : |muJ| ≤ 2 ^ 100) (hz : ∀ x ∈ l, |x.1| ≤ 2 ^ 100)
    (hm : ModeratePath S (l.map (kouExponent sigma r (q.getD 0) lambda muJ (T / l.length))) (l.map (kouSize sigma r (q.getD 0) lambda muJ (T / l.length)))) :
    ∃ ps : List ℝ, Sim.prices g l.length ⟨.num S, .num sigma, q.map fun x : ℝ => .num x, .num r⟩ (.num T)
          (.kou (.num lambda) (.num p) (.num eta1) (.num eta2) (.num muJ)) s =
        (.ok (ps.map fun x : ℝ => .num x), s') ∧ ps.length = l.length ∧ ∀ j < l.length, 0 < ps.getD j 0 ∧
      |ps.getD j 0 - expPath S (l.map (kouExponent sigma r (q.getD 0) lambda muJ (T / l.length))) j| ≤
        2 ^ (-49 : ℤ) * expWork (l.map (kouSize sigma r (q.getD 0) lambda muJ (T / l.length))) j *
          expPath S (l.map (kouExponent sigma r (q.getD 0) lambda muJ (T / l.length))) j := by
  have hc : (View.c ⟨.num S, .num sigma, q.map fun x : ℝ => .num x, .num r⟩ : Dbl R) = .num (q.getD 0 : ℝ) := by cases q <;> simp [View.c]
  generalize q.getD 0 = c at *
  have hh0 : 0 ≤ T / l.length := le_trans (by positivity) hk.step.1
  have w0 : ∀ x, 0 ≤ kouSize sigma r c lambda muJ (T / l.length) x := fun x => by
    have := absSum_nonneg x.2
    unfold kouSize
    positivity
  have steps : ∀ (l' : List (ℝ × List ℝ)) (s1 : G), (∀ x ∈ l', x ∈ l) → KouDraws g p dP dU dUp dDown s1 l' s' →
      ExpSteps (Sim.kouStep g ⟨.num S, .num sigma, q.map fun x : ℝ => .num x, .num r⟩ (.num lambda) (.num p) (.num muJ) (Sim.dt (.num T) l.length) .stdNormal dP dU dUp dDown) s1
        (l'.map fun x => (kouExponent sigma r c lambda muJ (T / l.length) x, kouSize sigma r c lambda muJ (T / l.length) x)) s' := by
    intro l'
    induction l' with
    | nil => intro s1 _ h; cases h; exact .nil _
    | cons x l' ih =>
      intro s1 hl h
      cases h with
      | @cons _ s2 s3 s4 _ z k ds _ hz1 hjn hcn hj t =>
      have hx := hl (z, ds) (by simp)
      have hsz := size_of_work hm w0 hx
      have hB := absSum_nonneg ds
      have near := kou_exponent_error hR (hn.trans (by norm_num [INT_MAX])) hk hla hmu (hz _ hx)
      have hA0 := (abs_nonneg _).trans near.1
      have hNB : 0 ≤ ((ds.length : ℝ) + 2) * absSum ds := by positivity
      unfold kouSize at hsz
      obtain ⟨hj1, hj2⟩ := kouJumps_eq hj (.num 0)
      have near2 := near_jumpsum hR near (by
        have : (2 : ℝ) ^ 40 ≤ 2 ^ 400 := by norm_num
        linarith) (ds := ds) (by unfold INT_MAX at hjn; omega) (by
        have : (2 : ℝ) ^ 40 ≤ 2 ^ 101 := by norm_num
        have : 0 ≤ (ds.length : ℝ) * absSum ds := by positivity
        nlinarith)
      refine .cons (fun y => ?_) near2 (ih _ (fun x hx => hl x (by simp [hx])) t)
      unfold Sim.kouStep Sim.draw
      rw [Eff.bind_of_ok hz1, Eff.bind_of_ok (drawCount_eq hjn hcn), Dbl.lit_zero, Eff.bind_of_ok hj1]
      show (Res.ok _, s4) = _
      unfold Sim.kouUpdate
      rw [hc]
      rfl
  obtain ⟨ps, h1, h2, h3⟩ := exp_path hR (steps l _ (fun _ h => h) hD) (S := S) (by simpa [Function.comp_def] using hm) (by
    intro x hx
    simp only [List.mem_map] at hx
    obtain ⟨y, -, rfl⟩ := hx
    exact w0 y)
  simp only [List.length_map, List.map_map, Function.comp_def] at h1 h2 h3
  refine ⟨ps, ?_, h2, h3⟩
  show Sim.kou g l.length _ _ _ _ _ _ (.num T) s = _
  unfold Sim.kou
  rw [Eff.bind_of_ok (show Sim.newDist g (.ok .stdNormal) s = (.ok .stdNormal, g.newDist .stdNormal s) from rfl), hP,
    Eff.bind_of_ok (show Sim.newDist g (.ok dP) _ = (.ok dP, g.newDist dP (g.newDist .stdNormal s)) from rfl), hU,
    Eff.bind_of_ok (show Sim.newDist g (.ok dU) _ = (.ok dU, g.newDist dU (g.newDist dP (g.newDist .stdNormal s))) from rfl), hUp,
    Eff.bind_of_ok (show Sim.newDist g (.ok dUp) _ = (.ok dUp, g.newDist dUp (g.newDist dU (g.newDist dP (g.newDist .stdNormal s)))) from rfl), hDown,
    Eff.bind_of_ok (show Sim.newDist g (.ok dDown) _ = (.ok dDown, g.newDist dDown (g.newDist dUp (g.newDist dU (g.newDist dP (g.newDist .stdNormal s))))) from rfl),
    Eff.unfoldInt_of_le hn]
  exact h1

/-- The exponent of one step of the variance gamma model. -/
theorem vg_exponent_error {sigma r q T a z theta omega : ℝ} {n : ℕ} (hn : n ≤ 2 ^ 53) (hk : ModerateMarket sigma r q (T / n)) (hth : |theta| ≤ 2 ^ 100) (hom : |omega| ≤ 2 ^ 100)
    (ha0 : 0 ≤ a) (ha : a ≤ 2 ^ 100) (hz : |z| ≤ 2 ^ 100) :
    Near R (2 ^ (-53 : ℤ)) 7 (2 ^ (-600 : ℤ)) ((|r| + |q| + |omega|) * (T / n) + (|theta| * a + |sigma| * Real.sqrt a * |z|))
      ((.num r - .num q + .num omega) * Sim.dt (.num T) n + (.num theta * .num a + .num sigma * Fl.sqrt (.num a) * .num z))
      ((r - q + omega) * (T / n) + (theta * a + sigma * Real.sqrt a * z)) := by
  have A := hR.round
  have hu : (0 : ℝ) ≤ 2 ^ (-53 : ℤ) := by positivity
  have hd0 : 0 < T / n := lt_of_lt_of_le (by positivity) hk.step.1
  obtain ⟨dt1, -, -⟩ := exponent_parts hR hn hk.vol hk.rate hk.coupon hk.step.1 hk.step.2 hz
  have hs := hk.vol
  have hr := hk.rate
  have hq := hk.coupon
  have hd2 := hk.step.2
  have hq2 : Real.sqrt a ≤ 2 ^ 100 := by
    rw [Real.sqrt_le_left (by positivity)]
    exact ha.trans (by norm_num)
  have k0 : ((1 : ℝ) + 2 ^ (-53 : ℤ)) ^ 0 ≤ 2 := by norm_num
  have k1 : ((1 : ℝ) + 2 ^ (-53 : ℤ)) ^ 1 ≤ 2 := by norm_num
  have k2 : ((1 : ℝ) + 2 ^ (-53 : ℤ)) ^ 2 ≤ 2 := by norm_num
  have k3 : ((1 : ℝ) + 2 ^ (-53 : ℤ)) ^ 3 ≤ 2 := by norm_num
  have k4 : ((1 : ℝ) + 2 ^ (-53 : ℤ)) ^ 4 ≤ 2 := by norm_num
  have d1 : Near R (2 ^ (-53 : ℤ)) 1 (2 ^ (-1075 : ℤ)) (|r| + |q|) (.num r - .num q) (r - q) := by
    refine (Near.exact r).sub A hu k0 (Near.exact q) ?_ (by norm_num)
    calc 2 * (|r| + |q|) + ((0 : ℝ) + 0) ≤ 2 * (2 ^ 100 + 2 ^ 100) + ((0 : ℝ) + 0) := by gcongr
      _ ≤ 2 ^ (1000 : ℤ) := by norm_num
  have d2 : Near R (2 ^ (-53 : ℤ)) 2 (2 ^ (-1070 : ℤ)) (|r| + |q| + |omega|) (.num r - .num q + .num omega) (r - q + omega) := by
    refine d1.add A hu k1 ((Near.exact omega).weaken hu (by norm_num) le_rfl) ?_ (by norm_num)
    calc 2 * (|r| + |q| + |omega|) + ((2 : ℝ) ^ (-1075 : ℤ) + 0) ≤ 2 * (2 ^ 100 + 2 ^ 100 + 2 ^ 100) + ((2 : ℝ) ^ (-1075 : ℤ) + 0) := by gcongr
      _ ≤ 2 ^ (1000 : ℤ) := by norm_num
  have d3 : Near R (2 ^ (-53 : ℤ)) 4 (2 ^ (-900 : ℤ)) ((|r| + |q| + |omega|) * (T / n)) ((.num r - .num q + .num omega) * Sim.dt (.num T) n) ((r - q + omega) * (T / n)) := by
    refine d2.mul A hu k2 k1 dt1 (by positivity) (by positivity) ?_ ?_
    · calc (2 * (|r| + |q| + |omega|) + (2 : ℝ) ^ (-1070 : ℤ)) * (2 * (T / n) + 2 ^ (-1075 : ℤ))
          ≤ (2 * (2 ^ 100 + 2 ^ 100 + 2 ^ 100) + (2 : ℝ) ^ (-1070 : ℤ)) * (2 * 2 ^ 100 + 2 ^ (-1075 : ℤ)) := by gcongr
        _ ≤ 2 ^ (1000 : ℤ) := by norm_num
    · calc (1 + (2 : ℝ) ^ (-53 : ℤ)) * (2 * (2 ^ (-1070 : ℤ) * (T / n) + (|r| + |q| + |omega|) * 2 ^ (-1075 : ℤ)) + 2 ^ (-1070 : ℤ) * 2 ^ (-1075 : ℤ)) + 2 ^ (-1075 : ℤ)
          ≤ (1 + (2 : ℝ) ^ (-53 : ℤ)) * (2 * (2 ^ (-1070 : ℤ) * 2 ^ 100 + (2 ^ 100 + 2 ^ 100 + 2 ^ 100) * 2 ^ (-1075 : ℤ)) + 2 ^ (-1070 : ℤ) * 2 ^ (-1075 : ℤ)) +
            2 ^ (-1075 : ℤ) := by gcongr
        _ ≤ 2 ^ (-900 : ℤ) := by norm_num
  have t1 : Near R (2 ^ (-53 : ℤ)) 1 (2 ^ (-1075 : ℤ)) (|theta| * a) (.num theta * .num a) (theta * a) := by
    have hE := Near.exact (R := R) (u := 2 ^ (-53 : ℤ)) a
    rw [abs_of_nonneg ha0] at hE
    refine (Near.exact theta).mul A hu k0 k0 hE le_rfl le_rfl ?_ (by norm_num)
    calc (2 * |theta| + 0) * (2 * a + (0 : ℝ)) ≤ (2 * 2 ^ 100 + 0) * (2 * 2 ^ 100 + (0 : ℝ)) := by gcongr
      _ ≤ 2 ^ (1000 : ℤ) := by norm_num
  have f1 : Near R (2 ^ (-53 : ℤ)) 1 (2 ^ (-1075 : ℤ)) (Real.sqrt a) (Fl.sqrt (.num (a : EReal))) (Real.sqrt a) := by
    have e : (Fl.sqrt (.num (a : EReal)) : Dbl R) = .num (R.rnd (Real.sqrt a)) := by
      show (if a < 0 then _ else _) = _
      rw [if_neg (not_lt.mpr ha0)]
    rw [e]
    refine near_rnd A hu (k := 0) (t := 0) (abs_of_nonneg (Real.sqrt_nonneg a)).le (by simp) ?_ (by norm_num)
    rw [abs_of_nonneg (Real.sqrt_nonneg a)]
    exact hq2.trans (by norm_num)
  have f2 : Near R (2 ^ (-53 : ℤ)) 2 (2 ^ (-970 : ℤ)) (|sigma| * Real.sqrt a) (.num sigma * Fl.sqrt (.num (a : EReal))) (sigma * Real.sqrt a) := by
    refine (Near.exact sigma).mul A hu k0 k1 f1 le_rfl (by positivity) ?_ ?_
    · calc (2 * |sigma| + 0) * (2 * Real.sqrt a + (2 : ℝ) ^ (-1075 : ℤ)) ≤ (2 * 2 ^ 100 + 0) * (2 * 2 ^ 100 + (2 : ℝ) ^ (-1075 : ℤ)) := by gcongr
        _ ≤ 2 ^ (1000 : ℤ) := by norm_num
    · calc (1 + (2 : ℝ) ^ (-53 : ℤ)) * (2 * (0 * Real.sqrt a + |sigma| * 2 ^ (-1075 : ℤ)) + 0 * 2 ^ (-1075 : ℤ)) + 2 ^ (-1075 : ℤ)
          ≤ (1 + (2 : ℝ) ^ (-53 : ℤ)) * (2 * (0 * 2 ^ 100 + 2 ^ 100 * 2 ^ (-1075 : ℤ)) + 0 * 2 ^ (-1075 : ℤ)) + 2 ^ (-1075 : ℤ) := by gcongr
        _ ≤ 2 ^ (-970 : ℤ) := by norm_num
  have f3 : Near R (2 ^ (-53 : ℤ)) 3 (2 ^ (-860 : ℤ)) (|sigma| * Real.sqrt a * |z|) (.num sigma * Fl.sqrt (.num (a : EReal)) * .num z) (sigma * Real.sqrt a * z) := by
    refine f2.mul A hu k2 k0 (Near.exact z) (by positivity) le_rfl ?_ ?_
    · calc (2 * (|sigma| * Real.sqrt a) + (2 : ℝ) ^ (-970 : ℤ)) * (2 * |z| + 0) ≤ (2 * (2 ^ 100 * 2 ^ 100) + (2 : ℝ) ^ (-970 : ℤ)) * (2 * 2 ^ 100 + 0) := by gcongr
        _ ≤ 2 ^ (1000 : ℤ) := by norm_num
    · calc (1 + (2 : ℝ) ^ (-53 : ℤ)) * (2 * (2 ^ (-970 : ℤ) * |z| + |sigma| * Real.sqrt a * 0) + 2 ^ (-970 : ℤ) * 0) + 2 ^ (-1075 : ℤ)
          ≤ (1 + (2 : ℝ) ^ (-53 : ℤ)) * (2 * (2 ^ (-970 : ℤ) * 2 ^ 100 + 2 ^ 100 * 2 ^ 100 * 0) + 2 ^ (-970 : ℤ) * 0) + 2 ^ (-1075 : ℤ) := by gcongr
        _ ≤ 2 ^ (-860 : ℤ) := by norm_num
  have v1 : Near R (2 ^ (-53 : ℤ)) 4 (2 ^ (-850 : ℤ)) (|theta| * a + |sigma| * Real.sqrt a * |z|)
      (.num theta * .num a + .num sigma * Fl.sqrt (.num (a : EReal)) * .num z) (theta * a + sigma * Real.sqrt a * z) := by
    refine (t1.weaken hu (by norm_num : 1 ≤ 3) le_rfl).add A hu k3 f3 ?_ (by norm_num)
    calc 2 * (|theta| * a + |sigma| * Real.sqrt a * |z|) + ((2 : ℝ) ^ (-1075 : ℤ) + 2 ^ (-860 : ℤ))
        ≤ 2 * (2 ^ 100 * 2 ^ 100 + 2 ^ 100 * 2 ^ 100 * 2 ^ 100) + ((2 : ℝ) ^ (-1075 : ℤ) + 2 ^ (-860 : ℤ)) := by gcongr
      _ ≤ 2 ^ (1000 : ℤ) := by norm_num
  refine (d3.add A hu k4 v1 (t := 2 ^ (-600 : ℤ)) ?_ (by norm_num)).weaken hu (by norm_num : 5 ≤ 7) le_rfl
  calc 2 * ((|r| + |q| + |omega|) * (T / n) + (|theta| * a + |sigma| * Real.sqrt a * |z|)) + ((2 : ℝ) ^ (-900 : ℤ) + 2 ^ (-850 : ℤ))
      ≤ 2 * ((2 ^ 100 + 2 ^ 100 + 2 ^ 100) * 2 ^ 100 + (2 ^ 100 * 2 ^ 100 + 2 ^ 100 * 2 ^ 100 * 2 ^ 100)) + ((2 : ℝ) ^ (-900 : ℤ) + 2 ^ (-850 : ℤ)) := by gcongr
    _ ≤ 2 ^ (1000 : ℤ) := by norm_num

/-- Paths of the variance gamma model. -/
theorem C99_varianceGamma {S sigma r T nu theta omega : ℝ} {q : Option ℝ} {dG : Dist (Dbl R)} {l : List (ℝ × ℝ)} {s s' : G}
    (hG : Dist.mkGamma (Sim.dt (.num T) l.length / .num nu) (.num nu) = .ok dG)
    (hD : GammaDraws g dG (g.newDist dG (g.newDist .stdNormal s)) l s') (hn : l.length ≤ INT_MAX)
    (hk : ModerateMarket sigma r (q.getD 0) (T / l.length)) (hth : |theta| ≤ 2 ^ 100) (hom : |omega| ≤ 2 ^ 100)
    (hz : ∀ x ∈ l, (0 ≤ x.1 ∧ x.1 ≤ 2 ^ 100) ∧ |x.2| ≤ 2 ^ 100)
    (hm : ModeratePath S (l.map (vgExponent sigma r (q.getD 0) theta omega (T / l.length))) (l.map (vgSize sigma r (q.getD 0) theta omega (T / l.length)))) :
    ∃ ps : List ℝ, Sim.prices g l.length ⟨.num S, .num sigma, q.map fun x : ℝ => .num x, .num r⟩ (.num T) (.varianceGamma (.num nu) (.num theta) (.num omega)) s =
        (.ok (ps.map fun x : ℝ => .num x), s') ∧ ps.length = l.length ∧ ∀ j < l.length, 0 < ps.getD j 0 ∧
      |ps.getD j 0 - expPath S (l.map (vgExponent sigma r (q.getD 0) theta omega (T / l.length))) j| ≤
        2 ^ (-49 : ℤ) * expWork (l.map (vgSize sigma r (q.getD 0) theta omega (T / l.length))) j *
          expPath S (l.map (vgExponent sigma r (q.getD 0) theta omega (T / l.length))) j := by
  have hc : (View.c ⟨.num S, .num sigma, q.map fun x : ℝ => .num x, .num r⟩ : Dbl R) = .num (q.getD 0 : ℝ) := by cases q <;> simp [View.c]
  generalize q.getD 0 = c at *
  have hh0 : 0 ≤ T / l.length := le_trans (by positivity) hk.step.1
  have steps : ∀ (l' : List (ℝ × ℝ)) (s1 : G), (∀ x ∈ l', x ∈ l) → GammaDraws g dG s1 l' s' →
      ExpSteps (Sim.vgStep g ⟨.num S, .num sigma, q.map fun x : ℝ => .num x, .num r⟩ (.num theta) (.num omega) (Sim.dt (.num T) l.length) dG .stdNormal) s1
        (l'.map fun x => (vgExponent sigma r c theta omega (T / l.length) x, vgSize sigma r c theta omega (T / l.length) x)) s' := by
    intro l'
    induction l' with
    | nil => intro s1 _ h; cases h; exact .nil _
    | cons x l' ih =>
      intro s1 hl h
      cases h with
      | @cons _ s2 s3 _ a z _ ha1 hz1 t =>
      obtain ⟨⟨x1, x2⟩, x3⟩ := hz _ (hl (a, z) (by simp))
      refine .cons (fun y => ?_) (vg_exponent_error hR (hn.trans (by norm_num [INT_MAX])) hk hth hom x1 x2 x3) (ih _ (fun x hx => hl x (by simp [hx])) t)
      unfold Sim.vgStep Sim.draw
      rw [Eff.bind_of_ok ha1, Eff.bind_of_ok hz1]
      show (Res.ok _, s3) = _
      unfold Sim.vgUpdate
      rw [hc]
  obtain ⟨ps, h1, h2, h3⟩ := exp_path hR (steps l _ (fun _ h => h) hD) (S := S) (by simpa [Function.comp_def] using hm) (by
    intro x hx
    simp only [List.mem_map] at hx
    obtain ⟨y, hy, rfl⟩ := hx
    have := (hz y hy).1.1
    show 0 ≤ vgSize _ _ _ _ _ _ _
    unfold vgSize
    positivity)
  simp only [List.length_map, List.map_map, Function.comp_def] at h1 h2 h3
  refine ⟨ps, ?_, h2, h3⟩
  show Sim.varianceGamma g l.length _ _ _ _ (.num T) s = _
  unfold Sim.varianceGamma
  rw [Eff.bind_of_ok (show Sim.newDist g (.ok .stdNormal) s = (.ok .stdNormal, g.newDist .stdNormal s) from rfl), hG,
    Eff.bind_of_ok (show Sim.newDist g (.ok dG) _ = (.ok dG, g.newDist dG (g.newDist .stdNormal s)) from rfl), Eff.unfoldInt_of_le hn]
  exact h1

end

/-! ## Examples -/

namespace JumpPathErrorExample

/-- A generator that delivers 1/2 for standard normal numbers, two jumps of -1/4 in each step of Merton's model, one up jump and two down jumps of 1/8
in each step of Kou's model, and 1/4 for the advance of the clock. -/
noncomputable def gen : Gen ℕ (Dbl .binary64) where
  draw d k := (.ok (match d with
    | .stdNormal => .num (1 / 2 : ℝ)
    | .normal _ _ => .num (-1 / 4 : ℝ)
    | .poisson _ => .num ((2 : ℕ) : ℝ)
    | .uniform _ _ => .num (if k % 7 = 2 then 1 / 4 else 3 / 4 : ℝ)
    | .exponential _ => .num (1 / 8 : ℝ)
    | .gamma _ _ => .num (1 / 4 : ℝ)), k + 1)
  newDist _ k := k

theorem prices_moderate {x : ℝ} (h1 : -10 ≤ x) (h2 : x ≤ 10) : Real.exp (-300) ≤ 100 * Real.exp x ∧ 100 * Real.exp x ≤ Real.exp 300 := by
  have h100 : (100 : ℝ) ≤ Real.exp 100 := by linarith [Real.add_one_le_exp (100 : ℝ)]
  constructor
  · have a : Real.exp (-300) ≤ Real.exp x := Real.exp_le_exp.mpr (by linarith)
    linarith [Real.exp_pos x]
  · calc 100 * Real.exp x ≤ Real.exp 100 * Real.exp 10 := mul_le_mul h100 (Real.exp_le_exp.mpr h2) (Real.exp_pos _).le (Real.exp_pos _).le
      _ = Real.exp 110 := by rw [← Real.exp_add]; norm_num
      _ ≤ Real.exp 300 := Real.exp_le_exp.mpr (by norm_num)

theorem market : ModerateMarket (1 / 4) (1 / 16) 0 1 :=
  ⟨by norm_num [abs_of_pos], by norm_num [abs_of_pos], by norm_num, by norm_num, by norm_num⟩

/-- Two steps with the same exponent. -/
theorem moderate {x m : ℝ} (h1 : |x| ≤ 5) (h0 : 0 ≤ m) (h2 : m ≤ 2 ^ 38) : ModeratePath 100 [x, x] [m, m] := by
  obtain ⟨a, b⟩ := abs_le.mp h1
  refine ⟨?_, ?_, ?_⟩
  · simpa using prices_moderate (x := 0) (by norm_num) (by norm_num)
  · intro j hj
    simp only [List.length_cons, List.length_nil] at hj
    interval_cases j
    · refine prices_moderate ?_ ?_ <;> simp <;> linarith
    · refine prices_moderate ?_ ?_ <;> simp <;> linarith
  · norm_num [expWork] at h2 ⊢
    linarith

theorem rnd_one : Rounding.binary64.rnd 1 = ((1 : ℝ) : EReal) := by
  have := binary64_doubleAccurate.int 1 (by norm_num)
  simpa using this

theorem dt_one : Sim.dt (.num ((2 : ℝ) : EReal)) 2 = (.num ((1 : ℝ) : EReal) : Dbl .binary64) := by
  have := binary64_doubleAccurate.int 2 (by norm_num)
  unfold Sim.dt
  rw [Dbl.lit_def]
  push_cast at this ⊢
  rw [this, Dbl.div_coe _ (by norm_num), div_self (by norm_num), rnd_one, EReal.coe_one]

theorem one_mul_one : (.num ((1 : ℝ) : EReal) * .num ((1 : ℝ) : EReal) : Dbl .binary64) = .num ((1 : ℝ) : EReal) := by
  rw [Dbl.mul_coe, one_mul, rnd_one]

theorem poisson : Dist.mkPoisson (.num ((1 : ℝ) : EReal) * Sim.dt (.num ((2 : ℝ) : EReal)) 2 : Dbl .binary64) = .ok (.poisson (.num (1 : ℝ))) := by
  rw [dt_one, one_mul_one]
  unfold Dist.mkPoisson
  rw [if_neg (by simp)]

theorem merton_draws {a b c : Dbl .binary64} : MertonDraws gen (.poisson a) (.normal b c) 0 [(1 / 2, [-1 / 4, -1 / 4]), (1 / 2, [-1 / 4, -1 / 4])] 8 :=
  .cons rfl (by norm_num [INT_MAX]) rfl (.cons rfl (.cons rfl (.nil _))) (.cons rfl (by norm_num [INT_MAX]) rfl (.cons rfl (.cons rfl (.nil _))) (.nil _))

example : ∃ ps : List ℝ, Sim.prices gen 2 ⟨.num (100 : ℝ), .num (1 / 4 : ℝ), none, .num (1 / 16 : ℝ)⟩ (.num (2 : ℝ)) (.merton (.num (1 : ℝ)) (.num (-1 / 4 : ℝ)) (.num (1 / 8 : ℝ))) 0 =
      (.ok (ps.map fun x : ℝ => .num x), 8) ∧ |ps.getD 1 0 - 100 * Real.exp (-11 / 16)| ≤ 2 ^ (-45 : ℤ) * (100 * Real.exp (-11 / 16)) := by
  have e1 : mertonExponent (1 / 4) (1 / 16) 0 1 (1 / 2, [-1 / 4, -1 / 4]) = -11 / 32 := by norm_num [mertonExponent]
  have e2 : mertonSize (1 / 4) (1 / 16) 0 1 (1 / 2, [-1 / 4, -1 / 4]) = 55 / 16 := by norm_num [mertonSize, absSum, abs_div, abs_neg]
  have hT : (2 : ℝ) / ([(1 / 2, [-1 / 4, -1 / 4]), (1 / 2, [-1 / 4, -1 / 4])] : List (ℝ × List ℝ)).length = 1 := by norm_num
  obtain ⟨ps, h1, -, h3⟩ := C99_merton binary64_doubleAccurate gen (S := 100) (sigma := 1 / 4) (r := 1 / 16) (T := 2) (lambda := 1) (muJ := -1 / 4) (sigmaJ := 1 / 8) (q := none)
    (l := [(1 / 2, [-1 / 4, -1 / 4]), (1 / 2, [-1 / 4, -1 / 4])]) (s := 0) (dP := .poisson (.num (1 : ℝ))) (dJ := .normal (.num (-1 / 4 : ℝ)) (.num (1 / 8 : ℝ))) poisson (by
      unfold Dist.mkNormal
      rw [if_neg (by simp)]) merton_draws (by norm_num [INT_MAX]) (by rw [hT]; exact market) (by simp; norm_num [abs_of_pos])
    (by
      rw [hT]
      simp only [Option.getD_none, List.map_cons, List.map_nil, e1, e2]
      exact moderate (by norm_num [abs_div, abs_neg]) (by norm_num) (by norm_num))
  refine ⟨ps, h1, ?_⟩
  have := (h3 1 (by norm_num)).2
  rw [hT] at this
  simp only [Option.getD_none, List.map_cons, List.map_nil, e1, e2, expPath, expWork] at this
  norm_num at this ⊢
  exact this.trans (mul_le_mul_of_nonneg_right (by norm_num) (by positivity))

theorem kou_draws {a b c d e : Dbl .binary64} : KouDraws gen (1 / 2) (.poisson a) (.uniform b c) (.exponential d) (.exponential e) 0
    [(1 / 2, [1 / 8, -(1 / 8), -(1 / 8)]), (1 / 2, [1 / 8, -(1 / 8), -(1 / 8)])] 14 := by
  have u1 : gen.draw (.uniform b c) 2 = (.ok (.num ((1 / 4 : ℝ) : EReal)), 3) := by simp [gen]
  have u2 : gen.draw (.uniform b c) 5 = (.ok (.num ((3 / 4 : ℝ) : EReal)), 6) := by simp [gen]
  have u3 : gen.draw (.uniform b c) 9 = (.ok (.num ((1 / 4 : ℝ) : EReal)), 10) := by simp [gen]
  have u4 : gen.draw (.uniform b c) 12 = (.ok (.num ((3 / 4 : ℝ) : EReal)), 13) := by simp [gen]
  exact .cons rfl (by norm_num [INT_MAX]) rfl (.up u1 (by norm_num) rfl rfl (.down u2 (by norm_num) rfl (.nil _)))
    (.cons rfl (by norm_num [INT_MAX]) rfl (.up u3 (by norm_num) rfl rfl (.down u4 (by norm_num) rfl (.nil _))) (.nil _))

example : ∃ ps : List ℝ, Sim.prices gen 2 ⟨.num (100 : ℝ), .num (1 / 4 : ℝ), none, .num (1 / 16 : ℝ)⟩ (.num (2 : ℝ))
        (.kou (.num (1 : ℝ)) (.num (1 / 2 : ℝ)) (.num (8 : ℝ)) (.num (8 : ℝ)) (.num (3 / 2 : ℝ))) 0 =
      (.ok (ps.map fun x : ℝ => .num x), 14) ∧ |ps.getD 1 0 - 100 * Real.exp (-15 / 16)| ≤ 2 ^ (-44 : ℤ) * (100 * Real.exp (-15 / 16)) := by
  have e1 : kouExponent (1 / 4) (1 / 16) 0 1 (3 / 2) 1 (1 / 2, [1 / 8, -(1 / 8), -(1 / 8)]) = -15 / 32 := by norm_num [kouExponent]
  have e2 : kouSize (1 / 4) (1 / 16) 0 1 (3 / 2) 1 (1 / 2, [1 / 8, -(1 / 8), -(1 / 8)]) = 133 / 16 := by norm_num [kouSize, absSum, abs_div, abs_neg]
  have hT : (2 : ℝ) / ([(1 / 2, [1 / 8, -(1 / 8), -(1 / 8)]), (1 / 2, [1 / 8, -(1 / 8), -(1 / 8)])] : List (ℝ × List ℝ)).length = 1 := by norm_num
  obtain ⟨ps, h1, -, h3⟩ := C99_kou binary64_doubleAccurate gen (S := 100) (sigma := 1 / 4) (r := 1 / 16) (T := 2) (lambda := 1) (p := 1 / 2) (eta1 := 8) (eta2 := 8) (muJ := 3 / 2)
    (l := [(1 / 2, [1 / 8, -(1 / 8), -(1 / 8)]), (1 / 2, [1 / 8, -(1 / 8), -(1 / 8)])]) (q := none) (s := 0) (dP := .poisson (.num (1 : ℝ))) (dU := .uniform (lit 0) (lit 1))
    (dUp := .exponential (.num (8 : ℝ))) (dDown := .exponential (.num (8 : ℝ))) poisson (by
      unfold Dist.mkUniform
      rw [if_neg (by
        have : (lit 1 : Dbl .binary64) = .num ((1 : ℝ) : EReal) := by
          rw [Dbl.lit_def]
          push_cast
          rw [rnd_one, EReal.coe_one]
        rw [this]
        simp)]) (by
      unfold Dist.mkExponential
      rw [if_neg (by simp)]) (by
      unfold Dist.mkExponential
      rw [if_neg (by simp)]) kou_draws (by norm_num [INT_MAX]) (by rw [hT]; exact market) (by norm_num) (by norm_num [abs_of_pos]) (by simp; norm_num [abs_of_pos])
    (by
      rw [hT]
      simp only [Option.getD_none, List.map_cons, List.map_nil, e1, e2]
      exact moderate (by norm_num [abs_div, abs_neg]) (by norm_num) (by norm_num))
  refine ⟨ps, h1, ?_⟩
  have := (h3 1 (by norm_num)).2
  rw [hT] at this
  simp only [Option.getD_none, List.map_cons, List.map_nil, e1, e2, expPath, expWork] at this
  norm_num at this ⊢
  exact this.trans (mul_le_mul_of_nonneg_right (by norm_num) (by positivity))

theorem gamma_draws {a b : Dbl .binary64} : GammaDraws gen (.gamma a b) 0 [(1 / 4, 1 / 2), (1 / 4, 1 / 2)] 4 := .cons rfl rfl (.cons rfl rfl (.nil _))

example : ∃ ps : List ℝ, Sim.prices gen 2 ⟨.num (100 : ℝ), .num (1 / 4 : ℝ), none, .num (1 / 16 : ℝ)⟩ (.num (2 : ℝ))
        (.varianceGamma (.num (1 : ℝ)) (.num (-1 / 4 : ℝ)) (.num (1 / 8 : ℝ))) 0 =
      (.ok (ps.map fun x : ℝ => .num x), 4) ∧ |ps.getD 1 0 - 100 * Real.exp (3 / 8)| ≤ 2 ^ (-47 : ℤ) * (100 * Real.exp (3 / 8)) := by
  have hs : Real.sqrt (1 / 4) = 1 / 2 := by
    rw [show (1 / 4 : ℝ) = (1 / 2) ^ 2 by norm_num, Real.sqrt_sq (by norm_num)]
  have e1 : vgExponent (1 / 4) (1 / 16) 0 (-1 / 4) (1 / 8) 1 (1 / 4, 1 / 2) = 3 / 16 := by
    unfold vgExponent
    rw [hs]
    norm_num
  have e2 : vgSize (1 / 4) (1 / 16) 0 (-1 / 4) (1 / 8) 1 (1 / 4, 1 / 2) = 5 / 16 := by
    unfold vgSize
    rw [hs]
    norm_num [abs_div, abs_neg]
  have hT : (2 : ℝ) / ([(1 / 4, 1 / 2), (1 / 4, 1 / 2)] : List (ℝ × ℝ)).length = 1 := by norm_num
  obtain ⟨ps, h1, -, h3⟩ := C99_varianceGamma binary64_doubleAccurate gen (S := 100) (sigma := 1 / 4) (r := 1 / 16) (T := 2) (nu := 1) (theta := -1 / 4) (omega := 1 / 8)
    (q := none) (s := 0) (dG := .gamma (.num (1 : ℝ)) (.num (1 : ℝ))) (by
      rw [show ([(1 / 4, 1 / 2), (1 / 4, 1 / 2)] : List (ℝ × ℝ)).length = 2 from rfl, dt_one, Dbl.div_coe _ (by norm_num), div_self (by norm_num), rnd_one]
      unfold Dist.mkGamma
      rw [if_neg (by simp)]) gamma_draws (by norm_num [INT_MAX]) (by rw [hT]; exact market) (by norm_num [abs_div, abs_neg]) (by norm_num [abs_of_pos])
    (by simp; norm_num [abs_of_pos])
    (by
      rw [hT]
      simp only [Option.getD_none, List.map_cons, List.map_nil, e1, e2]
      exact moderate (by norm_num [abs_of_pos]) (by norm_num) (by norm_num))
  refine ⟨ps, h1, ?_⟩
  have := (h3 1 (by norm_num)).2
  rw [hT] at this
  simp only [Option.getD_none, List.map_cons, List.map_nil, e1, e2, expPath, expWork] at this
  norm_num at this ⊢
  exact this.trans (mul_le_mul_of_nonneg_right (by norm_num) (by positivity))

end JumpPathErrorExample
end Verif
