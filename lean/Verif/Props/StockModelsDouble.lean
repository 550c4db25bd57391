import Verif.Props.PathDependent
import Verif.Props.RoundingError
import Verif.Props.StockModels

/-!
# C32 in doubles: simulated prices are never negative, but can underflow to 0
-/

namespace Verif
open Spec Eff

section
variable {G : Type} {R : Rounding}

/-- **C32**, in every rounded arithmetic, every model, with all parameters, volatilities, rates, maturities and draws (NaN and
infinities included): if the spot is not negative then no simulated price is negative.  Strict positivity, which holds in exact
arithmetic (`C32_positive`), is lost: see `C32_double_fails`. -/
theorem C32_double_partial (g : Gen G (Dbl R)) (steps : ℕ) (v : View (Dbl R)) (hS : Fl.lt v.price (lit 0) = false) (T : Dbl R)
    (k : ModelKind (Dbl R)) (s s' : G) (ps : List (Dbl R)) (h : Sim.prices g steps v T k s = (.ok ps, s')) :
    ∀ x ∈ ps, Fl.lt x (lit 0) = false := by
  simp only [← Dbl.notNeg_iff] at hS ⊢
  have key : ∀ {body : Dbl R → Eff G (Dbl R × Dbl R)} {l : List (Dbl R)} {s : G},
      (∀ a s x s', Dbl.NotNeg a → body a s = (.ok x, s') → Dbl.NotNeg x.1 ∧ Dbl.NotNeg x.2) →
      unfoldInt body steps v.price s = (.ok l, s') → ∀ y ∈ l, Dbl.NotNeg y := fun hb hl =>
    (unfoldN_inv (I := fun x => Dbl.NotNeg x) (J := fun x => Dbl.NotNeg x) hb hS (unfoldInt_ok_iff.mp hl).2).2
  have key2 : ∀ {body : Dbl R × Dbl R → Eff G ((Dbl R × Dbl R) × Dbl R)} {l : List (Dbl R)} {s : G} {v0 : Dbl R},
      (∀ a s x s', Dbl.NotNeg a.1 → body a s = (.ok x, s') → Dbl.NotNeg x.1.1 ∧ Dbl.NotNeg x.2) →
      unfoldInt body steps (v.price, v0) s = (.ok l, s') → ∀ y ∈ l, Dbl.NotNeg y := fun hb hl =>
    (unfoldN_inv (I := fun x => Dbl.NotNeg x.1) (J := fun x => Dbl.NotNeg x) hb hS (unfoldInt_ok_iff.mp hl).2).2
  have mul : ∀ {a : Dbl R} (y : Dbl R), Dbl.NotNeg a → Dbl.NotNeg (a * Fl.exp y) := fun y ha =>
    Dbl.notNeg_mul ha (Dbl.notNeg_exp y)
  cases k <;>
    simp only [Sim.prices, Sim.gbm, Sim.heston, Sim.bates, Sim.kou, Sim.merton, Sim.varianceGamma,
      bind_ok_iff] at h
  · obtain ⟨_, _, _, h⟩ := h
    refine key ?_ h
    intro a s x s' ha hx
    simp only [Sim.gbmStep, bind_ok_iff, pure_ok_iff] at hx
    obtain ⟨z, _, _, rfl, _⟩ := hx
    exact ⟨mul _ ha, mul _ ha⟩
  · obtain ⟨_, _, _, h⟩ := h
    refine key2 ?_ h
    intro a s x s' ha hx
    simp only [Sim.hestonStep, bind_ok_iff, pure_ok_iff] at hx
    obtain ⟨_, _, _, _, _, _, rfl, _⟩ := hx
    exact ⟨mul _ ha, mul _ ha⟩
  · obtain ⟨_, _, _, _, _, _, _, _, _, h⟩ := h
    refine key2 ?_ h
    intro a s x s' ha hx
    simp only [Sim.batesStep, bind_ok_iff, pure_ok_iff] at hx
    obtain ⟨_, _, _, _, _, _, _, _, _, S', _, hS', rfl, _⟩ := hx
    have : Dbl.NotNeg S' := by
      refine forN_inv (I := fun x => Dbl.NotNeg x) ?_ ?_ hS'
      · intro a s x s' ha hx
        simp only [Sim.batesJump, bind_ok_iff, pure_ok_iff] at hx
        obtain ⟨_, _, _, rfl, _⟩ := hx
        exact mul _ ha
      · exact mul _ ha
    exact ⟨this, this⟩
  · obtain ⟨_, _, _, _, _, _, _, _, _, _, _, _, _, _, _, h⟩ := h
    refine key ?_ h
    intro a s x s' ha hx
    simp only [Sim.kouStep, bind_ok_iff, pure_ok_iff] at hx
    obtain ⟨_, _, _, _, _, _, _, _, _, rfl, _⟩ := hx
    exact ⟨mul _ ha, mul _ ha⟩
  · obtain ⟨_, _, _, _, _, _, _, _, _, h⟩ := h
    refine key ?_ h
    intro a s x s' ha hx
    simp only [Sim.mertonStep, bind_ok_iff, pure_ok_iff] at hx
    obtain ⟨_, _, _, _, _, _, _, _, _, rfl, _⟩ := hx
    exact ⟨mul _ ha, mul _ ha⟩
  · obtain ⟨_, _, _, _, _, _, h⟩ := h
    refine key ?_ h
    intro a s x s' ha hx
    simp only [Sim.vgStep, bind_ok_iff, pure_ok_iff] at hx
    obtain ⟨_, _, _, _, _, _, rfl, _⟩ := hx
    exact ⟨mul _ ha, mul _ ha⟩

end

/-- A generator whose draws are all 0. -/
noncomputable def zeroGen {R : Rounding} : Gen Unit (Dbl R) where
  draw _ := fun s => (.ok (.num 0), s)
  newDist _ s := s

theorem rnd_underflow {x : ℝ} (h0 : 0 ≤ x) (h : x ≤ 2 ^ (-1076 : ℤ)) : Binary64.rnd x = 0 := by
  rcases h0.eq_or_lt with rfl | h0
  · exact Binary64.rnd_zero
  have hl : Binary64.ulpExp x = -1074 := by
    have := (zpow_le_zpow_iff_right₀ (a := (2 : ℝ)) (by norm_num)).mp ((Binary64.log_le h0).trans h)
    unfold Binary64.ulpExp
    rw [abs_of_pos h0]
    omega
  have hq : x / 2 ^ (-1074 : ℤ) ≤ 1 / 4 := by
    rw [div_le_iff₀ (by positivity)]
    refine h.trans (le_of_eq ?_)
    rw [show (-1076 : ℤ) = -2 + -1074 by norm_num, zpow_add₀ (by norm_num)]
    norm_num
  have hq0 : 0 ≤ x / 2 ^ (-1074 : ℤ) := by positivity
  have hn : Binary64.nearest (x / 2 ^ (-1074 : ℤ)) = 0 := by
    refine Binary64.nearest_unique ?_ ?_ <;> rw [Int.cast_zero, zero_sub, abs_neg, abs_of_nonneg hq0]
    · linarith
    · intro _; exact Even.zero
  have hr : Binary64.round53 x = 0 := by
    rw [Binary64.round53, hl, hn]; simp
  rw [Binary64.rnd_of_abs_lt (by rw [hr]; simp), hr]
  rfl

theorem exp_neg_le : Real.exp (-800) ≤ 2 ^ (-1076 : ℤ) := by
  have h1 : (2 : ℝ) ^ 10 ≤ Real.exp 7 := by
    have : Real.exp 7 = Real.exp 1 ^ 7 := by rw [← Real.exp_nat_mul]; norm_num
    rw [this]
    calc (2 : ℝ) ^ 10 ≤ 2.7 ^ 7 := by norm_num
      _ ≤ Real.exp 1 ^ 7 := by
        have := Real.exp_one_gt_d9
        gcongr
        linarith
  have h2 : (2 : ℝ) ^ 1140 ≤ Real.exp 800 := by
    calc (2 : ℝ) ^ 1140 = (2 ^ 10) ^ 114 := by rw [← pow_mul]
      _ ≤ Real.exp 7 ^ 114 := by gcongr
      _ = Real.exp 798 := by rw [← Real.exp_nat_mul]; norm_num
      _ ≤ Real.exp 800 := Real.exp_le_exp.mpr (by norm_num)
  rw [Real.exp_neg, zpow_neg]
  refine inv_anti₀ (by positivity) (le_trans ?_ h2)
  exact_mod_cast pow_le_pow_right₀ (one_le_two) (by norm_num : 1076 ≤ 1140)

/-- **C32** fails in binary64: with spot 100, volatility 1, rate 0 and one time step of 1600 years, the draw 0 gives the price
`100 * exp(-800)`, which underflows to 0. -/
theorem C32_double_fails :
    Sim.prices (zeroGen (R := .binary64)) 1 ⟨.ofReal _ 100, .ofReal _ 1, none, .ofReal _ 0⟩ (.ofReal _ 1600) .gbm () =
      (.ok [.ofReal _ 0], ()) := by
  have hn : ∀ n : ℕ, n ≤ 2 ^ 53 → Rounding.binary64.rnd (n : ℝ) = ((n : ℝ) : EReal) := fun n h => rnd_nat h
  have hneg : ∀ n : ℕ, n ≤ 2 ^ 53 → Rounding.binary64.rnd (-(n : ℝ)) = ((-(n : ℝ) : ℝ) : EReal) := fun n h => by
    rw [Rounding.neg, hn n h, EReal.coe_neg]
  have half : Rounding.binary64.rnd (1 / 2) = ((1 / 2 : ℝ) : EReal) := by
    have := Binary64.rnd_eq (x := 1 / 2) (-53) (2 ^ 52) (by norm_num) (by norm_num) (by norm_num) (by norm_num) (by norm_num) (by norm_num) (by norm_num)
    rw [show Rounding.binary64.rnd (1 / 2) = Binary64.rnd (1 / 2) from rfl, this]
    norm_num
  have A : ∀ {a b c : ℝ}, a + b = c → Rounding.binary64.rnd c = (c : EReal) →
      (Dbl.ofReal .binary64 a + Dbl.ofReal .binary64 b) = Dbl.ofReal .binary64 c := by
    intro a b c h hc
    rw [Dbl.ofReal, Dbl.ofReal, Dbl.add_coe, h, hc]; rfl
  have S : ∀ {a b c : ℝ}, a - b = c → Rounding.binary64.rnd c = (c : EReal) →
      (Dbl.ofReal .binary64 a - Dbl.ofReal .binary64 b) = Dbl.ofReal .binary64 c := by
    intro a b c h hc
    have e : -Dbl.ofReal .binary64 b = Dbl.ofReal .binary64 (-b) := by simp [Dbl.ofReal]
    rw [Dbl.sub_def, e]
    exact A (by rw [← h]; ring) hc
  have M : ∀ {a b c : ℝ}, a * b = c → Rounding.binary64.rnd c = (c : EReal) →
      (Dbl.ofReal .binary64 a * Dbl.ofReal .binary64 b) = Dbl.ofReal .binary64 c := by
    intro a b c h hc
    rw [Dbl.ofReal, Dbl.ofReal, Dbl.mul_coe, h, hc]; rfl
  have h0 : Rounding.binary64.rnd 0 = ((0 : ℝ) : EReal) := Rounding.zero _
  have hh : Rounding.binary64.rnd (-(1 / 2)) = ((-(1 / 2) : ℝ) : EReal) := by rw [Rounding.neg, half, EReal.coe_neg]
  have h800 : Rounding.binary64.rnd (-800) = ((-800 : ℝ) : EReal) := by exact_mod_cast hneg 800 (by norm_num)
  have h1600 : Rounding.binary64.rnd 1600 = ((1600 : ℝ) : EReal) := by exact_mod_cast hn 1600 (by norm_num)
  have h40 : Rounding.binary64.rnd 40 = ((40 : ℝ) : EReal) := by exact_mod_cast hn 40 (by norm_num)
  have l0 : (lit 0 : Dbl .binary64) = .ofReal _ 0 := by rw [Dbl.lit_zero]; rfl
  have lh : (lit (1 / 2) : Dbl .binary64) = .ofReal _ (1 / 2) := by
    rw [Dbl.lit_def, show (((1 / 2 : ℚ)) : ℝ) = 1 / 2 by norm_num, half]; rfl
  have hdt : Sim.dt (Dbl.ofReal .binary64 1600) 1 = .ofReal _ 1600 := by
    have := Dbl.div_coe (R := .binary64) 1600 one_ne_zero
    rw [div_one, h1600] at this
    unfold Sim.dt
    rw [show (((1 : ℕ) : ℚ)) = 1 by norm_num, Dbl.lit_one]
    exact this
  have hs : Fl.sqrt (Dbl.ofReal .binary64 1600) = .ofReal _ 40 := by
    show (if (1600 : ℝ) < 0 then Dbl.nan else Dbl.num (Rounding.binary64.rnd (Real.sqrt 1600))) = _
    rw [if_neg (by norm_num), show Real.sqrt 1600 = 40 by
      rw [show (1600 : ℝ) = 40 ^ 2 by norm_num]; exact Real.sqrt_sq (by norm_num), h40]
    rfl
  have he : Fl.exp (Dbl.ofReal .binary64 (-800)) = .ofReal _ 0 := by
    show Dbl.num (Binary64.rnd (Real.exp (-800))) = _
    rw [rnd_underflow (Real.exp_pos _).le exp_neg_le]; rfl
  have hu : Sim.gbmUpdate (F := Dbl .binary64) ⟨.ofReal _ 100, .ofReal _ 1, none, .ofReal _ 0⟩ (.ofReal _ 1600) (.ofReal _ 100) (.num 0) =
      .ofReal _ 0 := by
    have hz : (Dbl.num 0 : Dbl .binary64) = .ofReal _ 0 := rfl
    simp only [Sim.gbmUpdate, View.c, Option.getD_none, hz, l0, lh, hs]
    rw [S (c := 0) (by norm_num) h0, M (c := 1 / 2) (by norm_num) half, M (c := 1 / 2) (by norm_num) half,
      S (c := -(1 / 2)) (by norm_num) hh, M (c := -800) (by norm_num) h800, M (c := 40) (by norm_num) h40, M (c := 0) (by norm_num) h0,
      A (c := -800) (by norm_num) h800, he, M (c := 0) (by norm_num) h0]
  simp only [Sim.prices, Sim.gbm]
  rw [Eff.bind_of_ok (Sim.newDist_ok _ _), hdt]
  have : Sim.gbmStep (zeroGen (R := .binary64)) ⟨.ofReal _ 100, .ofReal _ 1, none, .ofReal _ 0⟩ (.ofReal _ 1600) .stdNormal (.ofReal _ 100) () =
      (.ok (.ofReal _ 0, .ofReal _ 0), ()) := by
    unfold Sim.gbmStep
    have hd : Sim.draw (zeroGen (R := .binary64)) .stdNormal () = (.ok (.num 0), ()) := rfl
    rw [Eff.bind_of_ok hd, hu]
    rfl
  rw [Eff.unfoldInt_of_le (by simp [INT_MAX]), Eff.unfoldN, Eff.bind_of_ok this]
  rfl

/-- No price is negative; in this path the price is 0. -/
example : Fl.lt (Dbl.ofReal .binary64 0) (lit 0) = false :=
  C32_double_partial (zeroGen (R := .binary64)) 1 ⟨.ofReal _ 100, .ofReal _ 1, none, .ofReal _ 0⟩ (by simp [Dbl.ofReal]) _ .gbm () () _
    C32_double_fails _ (by simp)

end Verif
