import Verif.Props.JumpPathError
import Verif.Props.PathDependent
import Verif.Lemmas.StockModel
import Verif.Lemmas.FdmRounding

/-!
# Property C100: prices simulated by accepted models are numbers
-/

set_option exponentiation.threshold 3000

namespace Verif
open Spec

namespace Dbl
variable {R : Rounding}

/-- What the property calls a lost price: zero or NaN. -/
def Lost (x : Dbl R) : Prop := x = num 0 ∨ x = nan
/-- Minus infinity or NaN. -/
def Low (x : Dbl R) : Prop := x = num ⊥ ∨ x = nan
/-- Infinity or NaN. -/
def High (x : Dbl R) : Prop := x = num ⊤ ∨ x = nan

theorem Low.add {x : Dbl R} (h : Low x) (y : Dbl R) : Low (x + y) := by
  rcases h with rfl | rfl
  · cases y with
    | nan => exact .inr (by simp)
    | num e =>
      rw [add_num]
      split_ifs
      · exact .inr rfl
      · exact .inl (by simp)
  · exact .inr (by simp)

theorem Low.radd {x : Dbl R} (h : Low x) (y : Dbl R) : Low (y + x) := by
  rcases h with rfl | rfl
  · cases y with
    | nan => exact .inr (by simp)
    | num e =>
      rw [add_num]
      split_ifs
      · exact .inr rfl
      · exact .inl (by simp)
  · exact .inr (by simp)

theorem High.neg {x : Dbl R} (h : High x) : Low (-x) := by
  rcases h with rfl | rfl
  · exact .inl (by simp)
  · exact .inr (by simp)

theorem High.rsub {x : Dbl R} (h : High x) (y : Dbl R) : Low (y - x) := by
  rw [sub_def]
  exact h.neg.radd y

theorem High.add {x : Dbl R} (h : High x) (y : Dbl R) : High (x + y) := by
  rcases h with rfl | rfl
  · cases y with
    | nan => exact .inr (by simp)
    | num e =>
      rw [add_num]
      split_ifs with h1
      · exact .inr rfl
      · have : e ≠ ⊥ := fun h => h1 (.inl ⟨rfl, h⟩)
        exact .inl (by rw [EReal.top_add_of_ne_bot this]; rfl)
  · exact .inr (by simp)

theorem Low.mul {x y : Dbl R} (h : Low x) (hy : NotNeg y) : Low (x * y) := by
  rcases h with rfl | rfl
  · rcases hy with rfl | hy
    · exact .inr (by simp)
    · cases y with
      | nan => exact .inr (by simp)
      | num e =>
        rw [mul_num]
        split_ifs with h1
        · exact .inr rfl
        · have h0 : 0 < e := lt_of_le_of_ne hy fun h => h1 (.inr ⟨h.symm, .inr rfl⟩)
          exact .inl (by rw [EReal.bot_mul_of_pos h0]; rfl)
  · exact .inr (by simp)

theorem Low.lmul {x y : Dbl R} (h : Low x) (hy : NotNeg y) : Low (y * x) := by
  rcases h with rfl | rfl
  · rcases hy with rfl | hy
    · exact .inr (by simp)
    · cases y with
      | nan => exact .inr (by simp)
      | num e =>
        rw [mul_num]
        split_ifs with h1
        · exact .inr rfl
        · have h0 : 0 < e := lt_of_le_of_ne hy fun h => h1 (.inl ⟨h.symm, .inr rfl⟩)
          exact .inl (by rw [EReal.mul_bot_of_pos h0]; rfl)
  · exact .inr (by simp)

theorem High.lmul {x y : Dbl R} (h : High x) (hy : NotNeg y) : High (y * x) := by
  rcases h with rfl | rfl
  · rcases hy with rfl | hy
    · exact .inr (by simp)
    · cases y with
      | nan => exact .inr (by simp)
      | num e =>
        rw [mul_num]
        split_ifs with h1
        · exact .inr rfl
        · have h0 : 0 < e := lt_of_le_of_ne hy fun h => h1 (.inl ⟨h.symm, .inl rfl⟩)
          exact .inl (by rw [EReal.mul_top_of_pos h0]; rfl)
  · exact .inr (by simp)

theorem Low.exp {x : Dbl R} (h : Low x) : Lost (Fl.exp x) := by
  rcases h with rfl | rfl
  · exact .inl (by simp)
  · exact .inr (by simp)

theorem Lost.lmul {x : Dbl R} (h : Lost x) (y : Dbl R) : Lost (y * x) := by
  rcases h with rfl | rfl
  · cases y with
    | nan => exact .inr (by simp)
    | num e =>
      rw [mul_num]
      split_ifs
      · exact .inr rfl
      · exact .inl (by rw [mul_zero, Rounding.rndE_zero])
  · exact .inr (by simp)

theorem Lost.mul {x : Dbl R} (h : Lost x) (y : Dbl R) : Lost (x * y) := by
  rcases h with rfl | rfl
  · cases y with
    | nan => exact .inr (by simp)
    | num e =>
      rw [mul_num]
      split_ifs
      · exact .inr rfl
      · exact .inl (by rw [zero_mul, Rounding.rndE_zero])
  · exact .inr (by simp)

theorem Lost.div {x : Dbl R} (h : Lost x) (y : Dbl R) : Lost (x / y) := by
  rcases h with rfl | rfl
  · cases y with
    | nan => exact .inr (by simp)
    | num e =>
      rw [div_num]
      by_cases he : e = 0
      · exact .inr (by simp [he])
      · rw [if_neg he]
        split_ifs
        · exact .inr rfl
        · exact .inl (by rw [EReal.zero_div, Rounding.rndE_zero])
  · exact .inr (by simp)

theorem Lost.add {x y : Dbl R} (h : Lost x) (hy : Lost y) : Lost (x + y) := by
  rcases h with rfl | rfl
  · rcases hy with rfl | rfl
    · rw [add_num, if_neg (by simp)]
      exact .inl (by rw [add_zero, Rounding.rndE_zero])
    · exact .inr (by simp)
  · exact .inr (by simp)

theorem notNeg_coe {x : ℝ} (h : 0 ≤ x) : NotNeg (num (x : EReal) : Dbl R) := .inr (show (0 : EReal) ≤ x from by exact_mod_cast h)

/-- What a call pays. -/
theorem Lost.call {x K : Dbl R} (h : Lost x) (hK : NotNeg K) : Lost (Fl.max (x - K) (lit 0)) := by
  rcases h with rfl | rfl
  · cases K with
    | nan => exact .inr (by simp)
    | num e =>
      have he : 0 ≤ e := by
        rcases hK with h | h
        · cases h
        · exact h
      rw [sub_def, neg_num, add_num, if_neg (by simp), zero_add, lit_zero, max_num, max_eq_right]
      · exact .inl rfl
      · exact R.rndE_nonpos (by simpa using he)
  · exact .inr (by simp)

end Dbl

variable {R : Rounding} {G : Type}

/-- The time step of an accepted maturity is not negative. -/
theorem dt_notNeg {T : Dbl R} (hT : T.NotNeg) (n : ℕ) : (Sim.dt T n).NotNeg := Dbl.notNeg_div hT (Dbl.notNeg_lit (by exact_mod_cast Nat.zero_le n))

/-- Kou's model with `eta1 = 1`, which the constructor accepts: the mean jump factor is infinite, and every simulated price is zero or NaN, whatever is drawn. -/
theorem C100_kou_fails {lambda p eta2 : Dbl R} (hl : lambda.NotNeg) {k : ModelKind (Dbl R)} (hk : ModelKind.mkKou lambda p (lit 1) eta2 = .ok k)
    (g : Gen G (Dbl R)) (n : ℕ) (v : View (Dbl R)) {T : Dbl R} (hT : T.NotNeg) {s s' : G} {ps : List (Dbl R)} (h : Sim.prices g n v T k s = (.ok ps, s')) :
    ∀ x ∈ ps, x.Lost := by
  unfold ModelKind.mkKou at hk
  split_ifs at hk with h1 h2 h3
  · exact absurd hk (by simp [invalidArg])
  · exact absurd hk (by simp [invalidArg])
  · exact absurd hk (by simp [invalidArg])
  injection hk with hk
  subst hk
  have hp : p.NotNeg := by
    rw [Dbl.notNeg_iff]
    simp only [Bool.or_eq_true, not_or, Bool.not_eq_true] at h1
    exact h1.1
  have hmu : (p * (lit 1 / (lit 1 - lit 1)) + (lit 1 - p) * (eta2 / (eta2 + lit 1))).High := by
    refine Dbl.High.add (Dbl.High.lmul (.inl ?_) hp) _
    rw [Dbl.lit_one, Dbl.sub_def, Dbl.neg_num, Dbl.add_num, if_neg (by decide), show (1 : EReal) + -1 = 0 by rw [← sub_eq_add_neg]; exact EReal.sub_self (by decide) (by decide),
      Rounding.rndE_zero, Dbl.div_num, if_pos rfl, if_neg (by simp), if_pos (by simp)]
  simp only [Sim.prices] at h
  unfold Sim.kou at h
  simp only [Eff.bind_ok_iff] at h
  obtain ⟨_, _, -, _, _, -, _, _, -, _, _, -, _, _, -, h⟩ := h
  obtain ⟨-, h⟩ := Eff.unfoldInt_ok_iff.mp h
  refine (Eff.unfoldN_inv (I := fun _ => True) (J := Dbl.Lost) (fun a s x s' _ hx => ?_) trivial h).2
  unfold Sim.kouStep at hx
  simp only [Eff.bind_ok_iff, Eff.pure_ok_iff] at hx
  obtain ⟨z, _, -, _, _, -, j, _, -, rfl, -⟩ := hx
  refine ⟨trivial, ?_⟩
  unfold Sim.kouUpdate
  refine Dbl.Lost.lmul (Dbl.Low.exp (((Dbl.Low.mul (Dbl.High.rsub (Dbl.High.lmul ?_ hl) _) (dt_notNeg hT n)).add _).add _)) a
  exact hmu.add _

/-- The variance gamma model when the argument of the logarithm in the constructor is not positive, which the constructor does not check:
every simulated price is zero or NaN, whatever is drawn. -/
theorem C100_varianceGamma_fails {sigma nu theta : Dbl R} {k : ModelKind (Dbl R)} (hk : ModelKind.mkVarianceGamma sigma nu theta = .ok k)
    (ha : Fl.gt (lit 1 - theta * nu - lit (1 / 2) * sigma * sigma * nu) (lit 0) = false)
    (g : Gen G (Dbl R)) (n : ℕ) (v : View (Dbl R)) {T : Dbl R} (hT : T.NotNeg) {s s' : G} {ps : List (Dbl R)} (h : Sim.prices g n v T k s = (.ok ps, s')) :
    ∀ x ∈ ps, x.Lost := by
  unfold ModelKind.mkVarianceGamma at hk
  split_ifs at hk with h1
  · exact absurd hk (by simp [invalidArg])
  injection hk with hk
  subst hk
  have hnu : nu.NotNeg := by
    rw [Dbl.notNeg_iff]
    simp only [Bool.not_eq_true] at h1
    cases nu with
    | nan => simp
    | num e =>
      rw [Dbl.lit_zero] at h1 ⊢
      rw [Dbl.le_num_false] at h1
      rw [Dbl.lt_num_false]
      exact h1.le
  have hlog : (Fl.log (lit 1 - theta * nu - lit (1 / 2) * sigma * sigma * nu)).Low := by
    generalize lit 1 - theta * nu - lit (1 / 2) * sigma * sigma * nu = a at ha ⊢
    cases a with
    | nan => exact .inr rfl
    | num e =>
      have ha' : e ≤ 0 := by
        have := (Dbl.gt_num (R := R) e 0).not.mp (by rw [← Dbl.lit_zero, ha]; simp)
        exact not_lt.mp this
      induction e with
      | bot => exact .inr rfl
      | top => exact absurd ha' (by simp)
      | coe x =>
        have hx : x ≤ 0 := by exact_mod_cast ha'
        show (if x < 0 then _ else if x = 0 then _ else _ : Dbl R).Low
        rcases hx.lt_or_eq with h | h
        · rw [if_pos h]
          exact .inr rfl
        · rw [if_neg h.not_lt, if_pos h]
          exact .inl rfl
  simp only [Sim.prices] at h
  unfold Sim.varianceGamma at h
  simp only [Eff.bind_ok_iff] at h
  obtain ⟨_, _, -, _, _, -, h⟩ := h
  obtain ⟨-, h⟩ := Eff.unfoldInt_ok_iff.mp h
  refine (Eff.unfoldN_inv (I := fun _ => True) (J := Dbl.Lost) (fun a s x s' _ hx => ?_) trivial h).2
  unfold Sim.vgStep at hx
  simp only [Eff.bind_ok_iff, Eff.pure_ok_iff] at hx
  obtain ⟨z, _, -, _, _, -, rfl, -⟩ := hx
  refine ⟨trivial, ?_⟩
  unfold Sim.vgUpdate
  refine Dbl.Lost.lmul (Dbl.Low.exp ((Dbl.Low.mul (Dbl.Low.radd ?_ _) (dt_notNeg hT n)).add _)) a
  exact hlog.lmul (Dbl.notNeg_div (Dbl.notNeg_lit (by norm_num)) hnu)

/-- The argument of the logarithm is not positive when `theta * nu` is at least one. -/
theorem logArgument {sigma nu theta : ℝ} (hs : 0 ≤ sigma) (hnu : 0 ≤ nu) (h : 1 ≤ theta * nu) :
    Fl.gt (lit 1 - .num theta * .num nu - lit (1 / 2) * .num sigma * .num sigma * .num nu : Dbl R) (lit 0) = false := by
  have n : (lit (1 / 2) * .num sigma * .num sigma * .num nu : Dbl R).NotNeg := by
    have hs' := Dbl.notNeg_coe (R := R) hs
    exact Dbl.notNeg_mul (Dbl.notNeg_mul (Dbl.notNeg_mul (Dbl.notNeg_lit (by norm_num)) hs') hs') (Dbl.notNeg_coe hnu)
  have m : ∃ e : EReal, (lit 1 - .num theta * .num nu : Dbl R) = .num e ∧ e ≤ 0 := by
    rw [Dbl.mul_coe, Dbl.lit_one, Dbl.sub_def, Dbl.neg_num, Dbl.add_num, if_neg (by
      rintro (⟨h, -⟩ | ⟨h, -⟩)
      · exact absurd h (by decide)
      · exact absurd h (by decide))]
    refine ⟨_, rfl, R.rndE_nonpos ?_⟩
    have : (1 : EReal) ≤ R.rnd (theta * nu) := by
      rw [← R.one]
      exact R.mono h
    calc (1 : EReal) + -R.rnd (theta * nu) ≤ 1 + -1 := by
          gcongr
          exact EReal.neg_le_neg_iff.mpr this
      _ = 0 := by rw [← sub_eq_add_neg]; exact EReal.sub_self (by decide) (by decide)
  obtain ⟨e, m1, m2⟩ := m
  rw [m1]
  generalize (lit (1 / 2) * .num sigma * .num sigma * .num nu : Dbl R) = y at n
  cases y with
  | nan => simp
  | num f =>
    have hf : 0 ≤ f := by
      rcases n with h | h
      · cases h
      · exact h
    rw [Dbl.sub_def, Dbl.neg_num, Dbl.add_num]
    split_ifs
    · simp
    · have : e + -f ≤ 0 := add_nonpos m2 (by simpa using hf)
      have := R.rndE_nonpos this
      rw [Dbl.lit_zero]
      have h' := (Dbl.gt_num (R := R) (R.rndE (e + -f)) 0).not.mpr (not_lt.mpr this)
      exact Bool.eq_false_iff.mpr h'

/-- In particular no double precision price comes from a variance gamma model with `theta * nu` at least one. -/
theorem C100_varianceGamma_theta_fails {sigma nu theta : ℝ} (hs : 0 ≤ sigma) (hnu : 0 < nu) (hth : 1 ≤ theta * nu) :
    ∃ k : ModelKind (Dbl R), ModelKind.mkVarianceGamma (.num sigma) (.num nu) (.num theta) = .ok k ∧
      ∀ (g : Gen G (Dbl R)) (n : ℕ) (v : View (Dbl R)) {T : Dbl R}, T.NotNeg → ∀ {s s' : G} {ps : List (Dbl R)}, Sim.prices g n v T k s = (.ok ps, s') → ∀ x ∈ ps, x.Lost := by
  have e : ModelKind.mkVarianceGamma (.num sigma : Dbl R) (.num nu) (.num theta) = .ok (.varianceGamma (.num nu) (.num theta)
      (lit 1 / .num nu * Fl.log (lit 1 - .num theta * .num nu - lit (1 / 2) * .num sigma * .num sigma * .num nu))) := by
    unfold ModelKind.mkVarianceGamma
    rw [if_neg (by simp [hnu])]
  exact ⟨_, e, fun g n v T hT s s' ps h => C100_varianceGamma_fails e (logArgument hs hnu.le hth) g n v hT h⟩

/-- The Monte Carlo price of a call when every simulated price is zero or NaN: zero or NaN, whatever the strike. -/
theorem C100_call_fails {src : PathSource G (Dbl R)} {T : Dbl R} (hsrc : ∀ s x s', src.simulatePriceAtMaturity T s = (.ok x, s') → x.Lost)
    {K : Dbl R} {pay : Payoff (Dbl R)} (hK : Payoff.mkVanilla .call K = .ok pay) (getR : Eff G (Dbl R)) (N : ℕ) {s s' : G} {x : Dbl R}
    (h : MC.singlePath src getR pay.eval1 T N s = (.ok x, s')) : x.Lost := by
  unfold MC.singlePath at h
  simp only [Eff.bind_ok_iff, Eff.pure_ok_iff] at h
  obtain ⟨r, _, -, sum, _, hsum, rfl, -⟩ := h
  have hK' : K.NotNeg ∧ pay = .vanilla .call K := by
    unfold Payoff.mkVanilla Payoff.checkStrike at hK
    rw [Dbl.notNeg_iff]
    cases hc : Fl.lt K (lit 0) with
    | true =>
      rw [hc] at hK
      exact absurd hK (by simp [invalidArg])
    | false =>
      rw [hc] at hK
      simp [Payoff.notCallPut] at hK
      exact ⟨rfl, hK.symm⟩
  obtain ⟨hK0, rfl⟩ := hK'
  have hs : sum.Lost := by
    have hN : ∃ n s₁ s₂, Eff.forN (fun acc => do
        let S ← src.simulatePriceAtMaturity T
        let p ← Eff.lift ((Payoff.vanilla .call K).eval1 S)
        return acc + p) n (lit 0) s₁ = (.ok sum, s₂) := by
      unfold Eff.forInt at hsum
      rw [Eff.bind_ok_iff] at hsum
      obtain ⟨a, s₁, h1, h2⟩ := hsum
      split_ifs at h2
      · rw [Eff.pure_ok_iff] at h2
        obtain ⟨rfl, -⟩ := h2
        exact ⟨_, _, _, h1⟩
      · simp at h2
    obtain ⟨_, _, _, hN⟩ := hN
    refine Eff.forN_inv (I := Dbl.Lost) (fun a s y s' ha hy => ?_) (.inl Dbl.lit_zero) hN
    simp only [Eff.bind_ok_iff, Eff.pure_ok_iff] at hy
    obtain ⟨S, _, hS, q, _, hq, rfl, -⟩ := hy
    refine ha.add ?_
    have hq : q = Fl.max (S - K) (lit 0) := by
      simp [Payoff.eval1] at hq
      rw [Dbl.lit_zero]
      exact hq.1.symm
    rw [hq]
    exact (hsrc _ _ _ hS).call hK0
  unfold MC.finish
  exact (hs.div _).mul _

/-- A quotient of a number by a rounded denominator. -/
theorem near_div (hR : DoubleAccurate R) {x1 x2 : ℝ} {y : Dbl R} (h1 : 0 ≤ x1) (h2 : 2 ^ (-60 : ℤ) ≤ x2) (hy : Near R (2 ^ (-53 : ℤ)) 1 (2 ^ (-1075 : ℤ)) x2 y x2) (hM : x1 / x2 ≤ 2 ^ 200) :
    Near R (2 ^ (-53 : ℤ)) 5 (2 ^ (-1075 : ℤ)) (x1 / x2) (.num (x1 : EReal) / y) (x1 / x2) := by
  obtain ⟨-, y, rfl, h⟩ := hy
  have hx2 : 0 < x2 := lt_of_lt_of_le (by positivity) h2
  have hδ : |y - x2| ≤ 3 * 2 ^ (-53 : ℤ) * x2 := by
    refine h.trans ?_
    have : (2 : ℝ) ^ (-1075 : ℤ) ≤ 2 ^ (-53 : ℤ) * 2 ^ (-60 : ℤ) := by norm_num
    have a := mul_le_mul_of_nonneg_left h2 (show (0 : ℝ) ≤ 2 ^ (-53 : ℤ) by positivity)
    generalize (2 : ℝ) ^ (-1075 : ℤ) = e at *
    have hu : (0 : ℝ) ≤ 2 ^ (-53 : ℤ) := by positivity
    generalize (2 : ℝ) ^ (-53 : ℤ) = u at *
    nlinarith [mul_nonneg hu hx2.le]
  have hy0 : x2 / 2 ≤ y := by
    have a := (abs_le.mp hδ).1
    have b : (3 : ℝ) * 2 ^ (-53 : ℤ) * x2 ≤ 1 / 2 * x2 := mul_le_mul_of_nonneg_right (by norm_num) hx2.le
    generalize (3 : ℝ) * 2 ^ (-53 : ℤ) * x2 = w at *
    linarith
  have hyp : 0 < y := lt_of_lt_of_le (by positivity) hy0
  have hq : 0 ≤ x1 / x2 := div_nonneg h1 hx2.le
  have key : |x1 / y - x1 / x2| ≤ ((1 + 2 ^ (-53 : ℤ)) ^ 4 - 1) * (x1 / x2) + 0 := by
    have e : x1 / y - x1 / x2 = x1 / x2 * ((x2 - y) / y) := by field_simp
    rw [e, abs_mul, abs_of_nonneg hq, add_zero, mul_comm]
    refine mul_le_mul_of_nonneg_right ?_ hq
    rw [abs_div, abs_of_pos hyp, abs_sub_comm, div_le_iff₀ hyp]
    have b : (1 - 3 * 2 ^ (-53 : ℤ)) * x2 ≤ y := by linarith [(abs_le.mp hδ).1]
    calc |y - x2| ≤ 3 * 2 ^ (-53 : ℤ) * x2 := hδ
      _ ≤ ((1 + 2 ^ (-53 : ℤ)) ^ 4 - 1) * ((1 - 3 * 2 ^ (-53 : ℤ)) * x2) := by
        rw [← mul_assoc]
        exact mul_le_mul_of_nonneg_right (by norm_num) hx2.le
      _ ≤ _ := mul_le_mul_of_nonneg_left b (by norm_num)
  rw [Dbl.div_coe _ hyp.ne']
  refine near_rnd hR.round (by positivity) (by rw [abs_of_nonneg hq]) key ?_ (by norm_num)
  rw [abs_of_nonneg (div_nonneg h1 hyp.le)]
  calc x1 / y ≤ x1 / (x2 / 2) := by gcongr
    _ = 2 * (x1 / x2) := by field_simp
    _ ≤ 2 * 2 ^ 200 := by gcongr
    _ ≤ _ := by norm_num

/-- The mean jump factor of Kou's model as stored by the constructor. -/
theorem kou_mean (hR : DoubleAccurate R) {p eta1 eta2 : ℝ} (hp : 0 ≤ p ∧ p ≤ 1) (h1 : 1 + 2 ^ (-52 : ℤ) ≤ eta1 ∧ eta1 ≤ 2 ^ 100) (h2 : 0 ≤ eta2 ∧ eta2 ≤ 2 ^ 100) :
    Near R (2 ^ (-53 : ℤ)) 8 (2 ^ (-1000 : ℤ)) (p * (eta1 / (eta1 - 1)) + (1 - p) * (eta2 / (eta2 + 1)))
      (.num p * (.num eta1 / (.num eta1 - lit 1)) + (lit 1 - .num p) * (.num eta2 / (.num eta2 + lit 1)) : Dbl R) (p * (eta1 / (eta1 - 1)) + (1 - p) * (eta2 / (eta2 + 1))) := by
  obtain ⟨hp0, hp1⟩ := hp
  have hu : (0 : ℝ) ≤ 2 ^ (-53 : ℤ) := by positivity
  have one : (lit 1 : Dbl R) = .num ((1 : ℝ) : EReal) := by rw [Dbl.lit_one, EReal.coe_one]
  have r : ∀ x : ℝ, 0 ≤ x → x ≤ 2 ^ 200 → Near R (2 ^ (-53 : ℤ)) 1 (2 ^ (-1075 : ℤ)) x (.num (R.rnd x)) x := fun x h0 h =>
    near_rnd hR.round hu (k := 0) (t := 0) (by rw [abs_of_nonneg h0]) (by simp) (by rw [abs_of_nonneg h0]; exact h.trans (by norm_num)) (by norm_num)
  have hd : 2 ^ (-52 : ℤ) ≤ eta1 - 1 := by linarith [h1.1]
  have hd0 : 0 < eta1 - 1 := lt_of_lt_of_le (by positivity) hd
  have q1 : eta1 / (eta1 - 1) ≤ 2 ^ 53 := by
    rw [div_le_iff₀ hd0]
    have : (2 : ℝ) ^ 53 * 2 ^ (-52 : ℤ) = 2 := by norm_num
    have := mul_le_mul_of_nonneg_left hd (show (0 : ℝ) ≤ 2 ^ 53 - 1 by norm_num)
    have : ((2 : ℝ) ^ 53 - 1) * 2 ^ (-52 : ℤ) ≥ 1 := by norm_num
    linarith
  have q2 : eta2 / (eta2 + 1) ≤ 1 := by
    rw [div_le_one (by linarith)]
    linarith
  have q10 : 0 ≤ eta1 / (eta1 - 1) := div_nonneg (by linarith) hd0.le
  have q20 : 0 ≤ eta2 / (eta2 + 1) := div_nonneg h2.1 (by linarith [h2.1])
  have a1 := near_div hR (x1 := eta1) (y := .num eta1 - lit 1) (by linarith) (le_trans (by norm_num) hd) (by
    rw [one, Dbl.sub_coe]
    exact r _ hd0.le (by linarith [h1.2, show (2 : ℝ) ^ 100 ≤ 2 ^ 200 by norm_num])) (q1.trans (by norm_num))
  have a2 := near_div hR (x1 := eta2) (x2 := eta2 + 1) (y := .num eta2 + lit 1) h2.1 (by linarith [h2.1, show (2 : ℝ) ^ (-60 : ℤ) ≤ 1 by norm_num]) (by
    rw [one, Dbl.add_coe]
    exact r _ (by linarith [h2.1]) (by linarith [h2.2, show (2 : ℝ) ^ 100 + 1 ≤ 2 ^ 200 by norm_num])) (q2.trans (by norm_num))
  have a3 : Near R (2 ^ (-53 : ℤ)) 1 (2 ^ (-1075 : ℤ)) (1 - p) (lit 1 - .num p : Dbl R) (1 - p) := by
    rw [one, Dbl.sub_coe]
    exact r _ (by linarith) (by linarith [show (1 : ℝ) ≤ 2 ^ 200 by norm_num])
  have a0 : Near R (2 ^ (-53 : ℤ)) 0 0 p (.num p : Dbl R) p := by
    have := Near.exact (R := R) (u := 2 ^ (-53 : ℤ)) p
    rwa [abs_of_nonneg hp0] at this
  have b1 := Near.mul hR.round hu (by norm_num) (by norm_num) a0 a1 le_rfl (by positivity) (t := 2 ^ (-1010 : ℤ)) (by
      have : (2 * p + 0) * (2 * (eta1 / (eta1 - 1)) + 2 ^ (-1075 : ℤ)) ≤ (2 * 1 + 0) * (2 * 2 ^ 53 + 2 ^ (-1075 : ℤ)) := by gcongr
      exact this.trans (by norm_num)) (by
      have : (1 + (2 : ℝ) ^ (-53 : ℤ)) * (2 * (0 * (eta1 / (eta1 - 1)) + p * 2 ^ (-1075 : ℤ)) + 0 * 2 ^ (-1075 : ℤ)) + 2 ^ (-1075 : ℤ) ≤
          (1 + (2 : ℝ) ^ (-53 : ℤ)) * (2 * (0 * 2 ^ 53 + 1 * 2 ^ (-1075 : ℤ)) + 0 * 2 ^ (-1075 : ℤ)) + 2 ^ (-1075 : ℤ) := by gcongr
      exact this.trans (by norm_num))
  have b2 := Near.mul hR.round hu (by norm_num) (by norm_num) a3 a2 (by positivity) (by positivity) (t := 2 ^ (-1010 : ℤ)) (by
      have : (2 * (1 - p) + 2 ^ (-1075 : ℤ)) * (2 * (eta2 / (eta2 + 1)) + 2 ^ (-1075 : ℤ)) ≤ (2 * 1 + 2 ^ (-1075 : ℤ)) * (2 * 1 + 2 ^ (-1075 : ℤ)) := by
        gcongr
        linarith
      exact this.trans (by norm_num)) (by
      have : (1 + (2 : ℝ) ^ (-53 : ℤ)) * (2 * (2 ^ (-1075 : ℤ) * (eta2 / (eta2 + 1)) + (1 - p) * 2 ^ (-1075 : ℤ)) + 2 ^ (-1075 : ℤ) * 2 ^ (-1075 : ℤ)) + 2 ^ (-1075 : ℤ) ≤
          (1 + (2 : ℝ) ^ (-53 : ℤ)) * (2 * (2 ^ (-1075 : ℤ) * 1 + 1 * 2 ^ (-1075 : ℤ)) + 2 ^ (-1075 : ℤ) * 2 ^ (-1075 : ℤ)) + 2 ^ (-1075 : ℤ) := by
        gcongr
        linarith
      exact this.trans (by norm_num))
  refine Near.add hR.round hu (k := 7) (by norm_num) (b1.weaken hu (by norm_num) le_rfl) b2 ?_ (by norm_num)
  have : 2 * (p * (eta1 / (eta1 - 1)) + (1 - p) * (eta2 / (eta2 + 1))) + (2 ^ (-1010 : ℤ) + 2 ^ (-1010 : ℤ)) ≤ 2 * (1 * 2 ^ 53 + 1 * 1) + ((2 : ℝ) ^ (-1010 : ℤ) + 2 ^ (-1010 : ℤ)) := by
    gcongr
    linarith
  exact this.trans (by norm_num)

section
variable (hR : DoubleAccurate R)
include hR

/-- Kou's model with `eta1` above one by at least the smallest step of the format: the constructor stores the mean jump factor up to rounding, and the
simulated prices are positive numbers. -/
theorem C100_kou_partial {lambda p eta1 eta2 : ℝ} (hp : 0 ≤ p ∧ p ≤ 1) (h1 : 1 + 2 ^ (-52 : ℤ) ≤ eta1 ∧ eta1 ≤ 2 ^ 100) (h2 : 0 ≤ eta2 ∧ eta2 ≤ 2 ^ 100) (hla : |lambda| ≤ 2 ^ 100) :
    ∃ muJ : ℝ, ModelKind.mkKou (.num lambda : Dbl R) (.num p) (.num eta1) (.num eta2) = .ok (.kou (.num lambda) (.num p) (.num eta1) (.num eta2) (.num muJ)) ∧
      |muJ - (p * (eta1 / (eta1 - 1)) + (1 - p) * (eta2 / (eta2 + 1)))| ≤ 2 ^ (-49 : ℤ) * (p * (eta1 / (eta1 - 1)) + (1 - p) * (eta2 / (eta2 + 1))) + 2 ^ (-1000 : ℤ) ∧
      ∀ {S sigma r T : ℝ} {q : Option ℝ} {dP dU dUp dDown : Dist (Dbl R)} {l : List (ℝ × List ℝ)} {g : Gen G (Dbl R)} {s s' : G},
        Dist.mkPoisson (.num lambda * Sim.dt (.num T) l.length) = .ok dP → Dist.mkUniform (lit 0) (lit 1) = .ok dU →
        Dist.mkExponential (.num eta1) = .ok dUp → Dist.mkExponential (.num eta2) = .ok dDown →
        KouDraws g p dP dU dUp dDown (g.newDist dDown (g.newDist dUp (g.newDist dU (g.newDist dP (g.newDist .stdNormal s))))) l s' → l.length ≤ INT_MAX →
        ModerateMarket sigma r (q.getD 0) (T / l.length) → (∀ x ∈ l, |x.1| ≤ 2 ^ 100) →
        ModeratePath S (l.map (kouExponent sigma r (q.getD 0) lambda muJ (T / l.length))) (l.map (kouSize sigma r (q.getD 0) lambda muJ (T / l.length))) →
        ∃ ps : List ℝ, Sim.prices g l.length ⟨.num S, .num sigma, q.map fun x : ℝ => .num x, .num r⟩ (.num T)
            (.kou (.num lambda) (.num p) (.num eta1) (.num eta2) (.num muJ)) s = (.ok (ps.map fun x : ℝ => .num x), s') ∧ ps.length = l.length ∧ ∀ x ∈ ps, 0 < x := by
  obtain ⟨-, muJ, e, h⟩ := kou_mean hR hp h1 h2
  have hd0 : (2 : ℝ) ^ (-52 : ℤ) ≤ eta1 - 1 := by linarith [h1.1]
  have hd1 : 0 < eta1 - 1 := lt_of_lt_of_le (by positivity) hd0
  have q1 : eta1 / (eta1 - 1) ≤ 2 ^ 53 := by
    rw [div_le_iff₀ hd1]
    have := mul_le_mul_of_nonneg_left hd0 (show (0 : ℝ) ≤ 2 ^ 53 - 1 by norm_num)
    have : ((2 : ℝ) ^ 53 - 1) * 2 ^ (-52 : ℤ) ≥ 1 := by norm_num
    linarith
  have q10 : 0 ≤ eta1 / (eta1 - 1) := div_nonneg (by linarith) hd1.le
  have q2 : eta2 / (eta2 + 1) ≤ 1 := by
    rw [div_le_one (by linarith)]
    linarith
  have q20 : 0 ≤ eta2 / (eta2 + 1) := div_nonneg h2.1 (by linarith [h2.1])
  have c1 : p * (eta1 / (eta1 - 1)) ≤ 1 * 2 ^ 53 := mul_le_mul hp.2 q1 q10 (by norm_num)
  have c2 : (1 - p) * (eta2 / (eta2 + 1)) ≤ 1 * 1 := mul_le_mul (by linarith [hp.1]) q2 q20 (by norm_num)
  have c3 := mul_nonneg hp.1 q10
  have c4 := mul_nonneg (show 0 ≤ 1 - p by linarith [hp.2]) q20
  set m := p * (eta1 / (eta1 - 1)) + (1 - p) * (eta2 / (eta2 + 1)) with hm
  have hm0 : 0 ≤ m := by linarith
  have hm1 : m ≤ 2 ^ 54 := by
    have : (1 : ℝ) * 2 ^ 53 + 1 * 1 ≤ 2 ^ 54 := by norm_num
    linarith
  have he : |muJ - m| ≤ 2 ^ (-49 : ℤ) * m + 2 ^ (-1000 : ℤ) := h.trans (add_le_add (mul_le_mul_of_nonneg_right (by norm_num) hm0) le_rfl)
  refine ⟨muJ, ?_, he, ?_⟩
  · unfold ModelKind.mkKou
    have one : (lit 1 : Dbl R) = .num ((1 : ℝ) : EReal) := by rw [Dbl.lit_one, EReal.coe_one]
    have zero : (lit 0 : Dbl R) = .num ((0 : ℝ) : EReal) := by rw [Dbl.lit_zero, EReal.coe_zero]
    have hge : 1 ≤ eta1 := by linarith
    rw [e, one, zero, if_neg (by
      simp only [Bool.or_eq_true, Dbl.lt_num, Dbl.gt_num, EReal.coe_lt_coe_iff, not_or, not_lt]
      exact ⟨hp.1, hp.2⟩), if_neg (by
      simp only [Dbl.lt_num, EReal.coe_lt_coe_iff, not_lt]
      exact hge), if_neg (by simp [h2.1])]
  · intro S sigma r T q dP dU dUp dDown l g s s' hP hU hUp hDown hD hn hk hz hmod
    have hmu : |muJ| ≤ 2 ^ 100 := by
      have a : |muJ| ≤ |muJ - m| + |m| := by
        have := abs_add_le (muJ - m) m
        rwa [sub_add_cancel] at this
      rw [abs_of_nonneg hm0] at a
      have b : 2 ^ (-49 : ℤ) * m ≤ 2 ^ (-49 : ℤ) * 2 ^ 54 := mul_le_mul_of_nonneg_left hm1 (by positivity)
      have c : (2 : ℝ) ^ (-49 : ℤ) * 2 ^ 54 + 2 ^ (-1000 : ℤ) + 2 ^ 54 ≤ 2 ^ 100 := by norm_num
      generalize (2 : ℝ) ^ (-49 : ℤ) * m = w at *
      linarith
    obtain ⟨ps, e1, e2, e3⟩ := C99_kou hR g hP hU hUp hDown hD hn hk hla hmu hz hmod
    refine ⟨ps, e1, e2, fun x hx => ?_⟩
    obtain ⟨j, hj, rfl⟩ := List.mem_iff_getElem.mp hx
    have := (e3 j (e2 ▸ hj)).1
    rwa [List.getD_eq_getElem?_getD, List.getElem?_eq_getElem hj] at this

/-- The variance gamma model when the computed argument of the logarithm is a positive number with a moderate logarithm: the constructor stores a number,
and the simulated prices are positive numbers. -/
theorem C100_varianceGamma_partial {sigma₀ nu theta a w : ℝ} (hnu : 2 ^ (-40 : ℤ) ≤ nu ∧ nu ≤ 2 ^ 40) (hth : |theta| ≤ 2 ^ 100)
    (ha : (lit 1 - .num theta * .num nu - lit (1 / 2) * .num sigma₀ * .num sigma₀ * .num nu : Dbl R) = .num a) (ha0 : 0 < a) (hw : R.logF a = (w : EReal)) (hw1 : |w| ≤ 2 ^ 40) :
    ∃ omega : ℝ, ModelKind.mkVarianceGamma (.num sigma₀ : Dbl R) (.num nu) (.num theta) = .ok (.varianceGamma (.num nu) (.num theta) (.num omega)) ∧
      |omega - 1 / nu * w| ≤ 2 ^ (-51 : ℤ) * (1 / nu * |w|) + 2 ^ (-1000 : ℤ) ∧
      ∀ {S sigma r T : ℝ} {q : Option ℝ} {dG : Dist (Dbl R)} {l : List (ℝ × ℝ)} {g : Gen G (Dbl R)} {s s' : G},
        Dist.mkGamma (Sim.dt (.num T) l.length / .num nu) (.num nu) = .ok dG → GammaDraws g dG (g.newDist dG (g.newDist .stdNormal s)) l s' → l.length ≤ INT_MAX →
        ModerateMarket sigma r (q.getD 0) (T / l.length) → (∀ x ∈ l, (0 ≤ x.1 ∧ x.1 ≤ 2 ^ 100) ∧ |x.2| ≤ 2 ^ 100) →
        ModeratePath S (l.map (vgExponent sigma r (q.getD 0) theta omega (T / l.length))) (l.map (vgSize sigma r (q.getD 0) theta omega (T / l.length))) →
        ∃ ps : List ℝ, Sim.prices g l.length ⟨.num S, .num sigma, q.map fun x : ℝ => .num x, .num r⟩ (.num T) (.varianceGamma (.num nu) (.num theta) (.num omega)) s =
            (.ok (ps.map fun x : ℝ => .num x), s') ∧ ps.length = l.length ∧ ∀ x ∈ ps, 0 < x := by
  have hu : (0 : ℝ) ≤ 2 ^ (-53 : ℤ) := by positivity
  have hn0 : 0 < nu := lt_of_lt_of_le (by positivity) hnu.1
  have one : (lit 1 : Dbl R) = .num ((1 : ℝ) : EReal) := by rw [Dbl.lit_one, EReal.coe_one]
  have hi : 1 / nu ≤ 2 ^ 40 := by
    rw [div_le_iff₀ hn0]
    have := mul_le_mul_of_nonneg_left hnu.1 (show (0 : ℝ) ≤ 2 ^ 40 by norm_num)
    have : (2 : ℝ) ^ 40 * 2 ^ (-40 : ℤ) = 1 := by norm_num
    linarith
  have hi0 : 0 ≤ 1 / nu := by positivity
  have n1 : Near R (2 ^ (-53 : ℤ)) 1 (2 ^ (-1075 : ℤ)) (1 / nu) (lit 1 / .num nu : Dbl R) (1 / nu) := by
    rw [one, Dbl.div_coe _ hn0.ne']
    exact near_rnd hR.round hu (k := 0) (t := 0) (by rw [abs_of_nonneg hi0]) (by simp) (by rw [abs_of_nonneg hi0]; exact hi.trans (by norm_num)) (by norm_num)
  have hlog : Fl.log (.num (a : EReal) : Dbl R) = .num (w : EReal) := by
    show (if a < 0 then _ else if a = 0 then _ else _ : Dbl R) = _
    rw [if_neg ha0.not_gt, if_neg ha0.ne', hw]
  have n2 := Near.mul hR.round hu (by norm_num) (by norm_num) n1 (Near.exact (R := R) (u := 2 ^ (-53 : ℤ)) w) (by positivity) le_rfl (t := 2 ^ (-1000 : ℤ)) (by
      have : (2 * (1 / nu) + 2 ^ (-1075 : ℤ)) * (2 * |w| + 0) ≤ (2 * 2 ^ 40 + 2 ^ (-1075 : ℤ)) * (2 * 2 ^ 40 + 0) := by gcongr
      exact this.trans (by norm_num)) (by
      have : (1 + (2 : ℝ) ^ (-53 : ℤ)) * (2 * (2 ^ (-1075 : ℤ) * |w| + 1 / nu * 0) + 2 ^ (-1075 : ℤ) * 0) + 2 ^ (-1075 : ℤ) ≤
          (1 + (2 : ℝ) ^ (-53 : ℤ)) * (2 * (2 ^ (-1075 : ℤ) * 2 ^ 40 + 2 ^ 40 * 0) + 2 ^ (-1075 : ℤ) * 0) + 2 ^ (-1075 : ℤ) := by gcongr
      exact this.trans (by norm_num))
  obtain ⟨-, omega, e, h⟩ := n2
  have hm0 : 0 ≤ 1 / nu * |w| := by positivity
  have hm1 : 1 / nu * |w| ≤ 2 ^ 40 * 2 ^ 40 := by gcongr
  have he : |omega - 1 / nu * w| ≤ 2 ^ (-51 : ℤ) * (1 / nu * |w|) + 2 ^ (-1000 : ℤ) := h.trans (add_le_add (mul_le_mul_of_nonneg_right (by norm_num) hm0) le_rfl)
  refine ⟨omega, ?_, he, ?_⟩
  · unfold ModelKind.mkVarianceGamma
    have zero : (lit 0 : Dbl R) = .num ((0 : ℝ) : EReal) := by rw [Dbl.lit_zero, EReal.coe_zero]
    rw [ha, hlog, e, zero, if_neg (by simp [hn0])]
  · intro S sigma r T q dG l g s s' hG hD hn hk hz hmod
    have hom : |omega| ≤ 2 ^ 100 := by
      have a : |omega| ≤ |omega - 1 / nu * w| + |1 / nu * w| := by
        have := abs_add_le (omega - 1 / nu * w) (1 / nu * w)
        rwa [sub_add_cancel] at this
      rw [abs_mul, abs_of_nonneg hi0] at a
      have b : 2 ^ (-51 : ℤ) * (1 / nu * |w|) ≤ 2 ^ (-51 : ℤ) * (2 ^ 40 * 2 ^ 40) := mul_le_mul_of_nonneg_left hm1 (by positivity)
      have c : (2 : ℝ) ^ (-51 : ℤ) * (2 ^ 40 * 2 ^ 40) + 2 ^ (-1000 : ℤ) + 2 ^ 40 * 2 ^ 40 ≤ 2 ^ 100 := by norm_num
      generalize (2 : ℝ) ^ (-51 : ℤ) * (1 / nu * |w|) = v at *
      linarith
    obtain ⟨ps, e1, e2, e3⟩ := C99_varianceGamma hR g hG hD hn hk hth hom hz hmod
    refine ⟨ps, e1, e2, fun x hx => ?_⟩
    obtain ⟨j, hj, rfl⟩ := List.mem_iff_getElem.mp hx
    have := (e3 j (e2 ▸ hj)).1
    rwa [List.getD_eq_getElem?_getD, List.getElem?_eq_getElem hj] at this

end

namespace AcceptedModelsExample
open JumpPathErrorExample

theorem one_eq : (lit 1 : Dbl .binary64) = .num ((1 : ℝ) : EReal) := by rw [Dbl.lit_one, EReal.coe_one]

theorem two_notNeg : (.num ((2 : ℝ) : EReal) : Dbl .binary64).NotNeg := Dbl.notNeg_coe (by norm_num)

/-- The accepted model of Kou with `eta1 = 1`. -/
theorem kou_accepted : ∃ muJ, ModelKind.mkKou (.num (1 : ℝ) : Dbl .binary64) (.num (1 / 2 : ℝ)) (lit 1) (.num (8 : ℝ)) =
    .ok (.kou (.num (1 : ℝ)) (.num (1 / 2 : ℝ)) (lit 1) (.num (8 : ℝ)) muJ) := by
  unfold ModelKind.mkKou
  rw [if_neg (by
    simp only [one_eq, Dbl.lit_zero, ← EReal.coe_zero, Bool.or_eq_true, Dbl.lt_num, Dbl.gt_num, EReal.coe_lt_coe_iff]
    norm_num), if_neg (by simp), if_neg (by
    simp only [Dbl.lit_zero, ← EReal.coe_zero, Dbl.lt_num, EReal.coe_lt_coe_iff]
    norm_num)]
  exact ⟨_, rfl⟩

/-- A step of the accepted model runs to its end. -/
theorem kou_step (v : View (Dbl .binary64)) (muJ y a : Dbl .binary64) {s s' : ℕ} (hz : gen.draw .stdNormal s = (.ok (.num (1 / 2 : ℝ)), s + 1))
    (hn : ∀ d : Dbl .binary64, gen.draw (.poisson d) (s + 1) = (.ok (.num ((2 : ℕ) : ℝ)), s + 2)) {ds : List ℝ}
    (hj : ∀ b c d e : Dbl .binary64, KouTerms gen (1 / 2) (.uniform b c) (.exponential d) (.exponential e) 2 (s + 2) ds s') (b c d e f : Dbl .binary64) :
    ∃ x, Sim.kouStep gen v (.num (1 : ℝ)) (.num (1 / 2 : ℝ)) muJ f .stdNormal (.poisson a) (.uniform b c) (.exponential d) (.exponential e) y s = (.ok (x, x), s') := by
  unfold Sim.kouStep Sim.draw
  rw [Eff.bind_of_ok hz, Eff.bind_of_ok (drawCount_eq (by norm_num [INT_MAX]) (hn a)), Eff.bind_of_ok (kouJumps_eq (hj b c d e) (lit 0)).1]
  exact ⟨_, rfl⟩

example (v : View (Dbl .binary64)) : ∃ (k : ModelKind (Dbl .binary64)) (x y : Dbl .binary64),
    ModelKind.mkKou (.num (1 : ℝ)) (.num (1 / 2 : ℝ)) (lit 1) (.num (8 : ℝ)) = .ok k ∧ Sim.prices gen 2 v (.num (2 : ℝ)) k 0 = (.ok [x, y], 14) ∧ x.Lost ∧ y.Lost := by
  obtain ⟨muJ, hk⟩ := kou_accepted
  have u1 : ∀ b c, gen.draw (.uniform b c) 2 = (.ok (.num ((1 / 4 : ℝ) : EReal)), 3) := by simp [gen]
  have u2 : ∀ b c, gen.draw (.uniform b c) 5 = (.ok (.num ((3 / 4 : ℝ) : EReal)), 6) := by simp [gen]
  have u3 : ∀ b c, gen.draw (.uniform b c) 9 = (.ok (.num ((1 / 4 : ℝ) : EReal)), 10) := by simp [gen]
  have u4 : ∀ b c, gen.draw (.uniform b c) 12 = (.ok (.num ((3 / 4 : ℝ) : EReal)), 13) := by simp [gen]
  obtain ⟨x, hx⟩ := kou_step v muJ v.price (.num (1 : ℝ)) (s := 0) rfl (fun _ => rfl)
    (fun b c _ _ => .up (u1 b c) (by norm_num) rfl rfl (.down (u2 b c) (by norm_num) rfl (.nil _))) (lit 0) (lit 1) (lit 1) (.num (8 : ℝ)) (Sim.dt (.num (2 : ℝ)) 2)
  obtain ⟨y, hy⟩ := kou_step v muJ x (.num (1 : ℝ)) (s := 7) rfl (fun _ => rfl)
    (fun b c _ _ => .up (u3 b c) (by norm_num) rfl rfl (.down (u4 b c) (by norm_num) rfl (.nil _))) (lit 0) (lit 1) (lit 1) (.num (8 : ℝ)) (Sim.dt (.num (2 : ℝ)) 2)
  have run : Sim.prices gen 2 v (.num (2 : ℝ)) (.kou (.num (1 : ℝ)) (.num (1 / 2 : ℝ)) (lit 1) (.num (8 : ℝ)) muJ) 0 = (.ok [x, y], 14) := by
    show Sim.kou gen 2 _ _ _ _ _ _ (.num (2 : ℝ)) 0 = _
    unfold Sim.kou
    rw [Eff.bind_of_ok (show Sim.newDist gen (.ok .stdNormal) 0 = (.ok .stdNormal, 0) from rfl), poisson,
      Eff.bind_of_ok (show Sim.newDist gen (.ok (.poisson (.num (1 : ℝ)))) 0 = (.ok (.poisson (.num (1 : ℝ))), 0) from rfl),
      show Dist.mkUniform (lit 0) (lit 1 : Dbl .binary64) = .ok (.uniform (lit 0) (lit 1)) from by
        unfold Dist.mkUniform
        rw [if_neg (by simp)],
      Eff.bind_of_ok (show Sim.newDist gen (.ok (.uniform (lit 0) (lit 1))) 0 = (.ok (.uniform (lit 0) (lit 1)), 0) from rfl),
      show Dist.mkExponential (lit 1 : Dbl .binary64) = .ok (.exponential (lit 1)) from by
        unfold Dist.mkExponential
        rw [if_neg (by simp)],
      Eff.bind_of_ok (show Sim.newDist gen (.ok (.exponential (lit 1))) 0 = (.ok (.exponential (lit 1)), 0) from rfl),
      show Dist.mkExponential (.num (8 : ℝ) : Dbl .binary64) = .ok (.exponential (.num (8 : ℝ))) from by
        unfold Dist.mkExponential
        rw [if_neg (by simp)],
      Eff.bind_of_ok (show Sim.newDist gen (.ok (.exponential (.num (8 : ℝ)))) 0 = (.ok (.exponential (.num (8 : ℝ))), 0) from rfl),
      Eff.unfoldInt_of_le (by norm_num [INT_MAX])]
    unfold Eff.unfoldN
    rw [Eff.bind_of_ok hx]
    unfold Eff.unfoldN
    rw [Eff.bind_of_ok (show _ = (Res.ok [y], 14) from by
      rw [Eff.bind_of_ok hy]
      rfl)]
    rfl
  have := C100_kou_fails (Dbl.notNeg_coe (by norm_num)) hk gen 2 v two_notNeg run
  exact ⟨_, x, y, hk, run, this x (by simp), this y (by simp)⟩

example (v : View (Dbl .binary64)) : ∃ (k : ModelKind (Dbl .binary64)) (x y : Dbl .binary64),
    ModelKind.mkVarianceGamma (.num (1 / 4 : ℝ)) (.num (1 : ℝ)) (.num (2 : ℝ)) = .ok k ∧ Sim.prices gen 2 v (.num (2 : ℝ)) k 0 = (.ok [x, y], 4) ∧ x.Lost ∧ y.Lost := by
  obtain ⟨k, hk, h⟩ := C100_varianceGamma_theta_fails (R := .binary64) (G := ℕ) (sigma := 1 / 4) (nu := 1) (theta := 2) (by norm_num) (by norm_num) (by norm_num)
  have run : ∃ x y, Sim.prices gen 2 v (.num (2 : ℝ)) k 0 = (.ok [x, y], 4) := by
    unfold ModelKind.mkVarianceGamma at hk
    rw [if_neg (by simp)] at hk
    injection hk with hk
    subst hk
    show ∃ x y, Sim.varianceGamma gen 2 _ _ _ _ (.num (2 : ℝ)) 0 = (.ok [x, y], 4)
    unfold Sim.varianceGamma
    rw [Eff.bind_of_ok (show Sim.newDist gen (.ok .stdNormal) 0 = (.ok .stdNormal, 0) from rfl),
      show Dist.mkGamma (Sim.dt (.num (2 : ℝ)) 2 / .num (1 : ℝ)) (.num (1 : ℝ) : Dbl .binary64) = .ok (.gamma (.num (1 : ℝ)) (.num (1 : ℝ))) from by
        rw [dt_one, Dbl.div_coe _ (by norm_num), div_self (by norm_num), rnd_one]
        unfold Dist.mkGamma
        rw [if_neg (by simp)],
      Eff.bind_of_ok (show Sim.newDist gen (.ok (.gamma (.num (1 : ℝ)) (.num (1 : ℝ)))) 0 = (.ok (.gamma (.num (1 : ℝ)) (.num (1 : ℝ))), 0) from rfl),
      Eff.unfoldInt_of_le (by norm_num [INT_MAX])]
    exact ⟨_, _, rfl⟩
  obtain ⟨x, y, run⟩ := run
  have := h gen 2 v two_notNeg run
  exact ⟨k, x, y, hk, run, this x (by simp), this y (by simp)⟩

/-- A source of prices that are lost, and a call on it. -/
example : (MC.singlePath (⟨1, fun _ => pure [.num 0], fun _ => pure (.num 0), fun _ _ _ => pure (.num 0)⟩ : PathSource Unit (Dbl .binary64)) (pure (lit 0))
    (Payoff.vanilla .call (.num (100 : ℝ))).eval1 (lit 1) 3 ()).1 = .ok (.num 0) ∨
    (MC.singlePath (⟨1, fun _ => pure [.num 0], fun _ => pure (.num 0), fun _ _ _ => pure (.num 0)⟩ : PathSource Unit (Dbl .binary64)) (pure (lit 0))
    (Payoff.vanilla .call (.num (100 : ℝ))).eval1 (lit 1) 3 ()).1 = .ok .nan := by
  have hK : Payoff.mkVanilla .call (.num (100 : ℝ) : Dbl .binary64) = .ok (.vanilla .call (.num (100 : ℝ))) := by
    unfold Payoff.mkVanilla Payoff.checkStrike
    rw [if_neg (by simp)]
    rfl
  have run : ∃ x, MC.singlePath (⟨1, fun _ => pure [.num 0], fun _ => pure (.num 0), fun _ _ _ => pure (.num 0)⟩ : PathSource Unit (Dbl .binary64)) (pure (lit 0))
      (Payoff.vanilla .call (.num (100 : ℝ))).eval1 (lit 1) 3 () = (.ok x, ()) := by
    unfold MC.singlePath
    rw [Eff.forInt_of_le (by norm_num [INT_MAX])]
    exact ⟨_, rfl⟩
  obtain ⟨x, run⟩ := run
  have := C100_call_fails (src := ⟨1, fun _ => pure [.num 0], fun _ => pure (.num 0), fun _ _ _ => pure (.num 0)⟩) (T := lit 1) (fun s y s' h => by
    cases h
    exact .inl rfl) hK (pure (lit 0)) 3 run
  rw [run]
  rcases this with rfl | rfl
  · exact .inl rfl
  · exact .inr rfl

/-- A model of Kou with up jumps of mean 1/7: the stored factor. -/
example : ∃ muJ : ℝ, ModelKind.mkKou (.num (1 : ℝ) : Dbl .binary64) (.num (1 / 2 : ℝ)) (.num (8 : ℝ)) (.num (8 : ℝ)) =
    .ok (.kou (.num (1 : ℝ)) (.num (1 / 2 : ℝ)) (.num (8 : ℝ)) (.num (8 : ℝ)) (.num muJ)) ∧ |muJ - 64 / 63| ≤ 2 ^ (-48 : ℤ) := by
  obtain ⟨m, h1, h2, -⟩ := C100_kou_partial (G := ℕ) binary64_doubleAccurate (lambda := 1) (p := 1 / 2) (eta1 := 8) (eta2 := 8) (by norm_num) (by norm_num) (by norm_num) (by norm_num)
  refine ⟨m, h1, ?_⟩
  norm_num at h2 ⊢
  exact h2.trans (by norm_num)

theorem half_exact : Rounding.binary64.rnd (1 / 2) = ((1 / 2 : ℝ) : EReal) := by
  have := Binary64.rnd_eq (x := 1 / 2) (-53) (2 ^ 52) (by norm_num) (by norm_num) (by rw [abs_of_pos] <;> norm_num) (by rw [abs_of_pos] <;> norm_num)
    (by norm_num) (by norm_num) (by norm_num)
  rw [show Rounding.binary64.rnd (1 / 2) = Binary64.rnd (1 / 2) from rfl, this]
  norm_num

/-- A variance gamma model with volatility 2, `nu = 1` and `theta = -3`: the argument of the logarithm is 2. -/
example : ∃ omega : ℝ, ModelKind.mkVarianceGamma (.num (2 : ℝ) : Dbl .binary64) (.num (1 : ℝ)) (.num (-3 : ℝ)) = .ok (.varianceGamma (.num (1 : ℝ)) (.num (-3 : ℝ)) (.num omega)) ∧
    |omega - Real.log 2| ≤ 2 ^ (-49 : ℤ) := by
  have i : ∀ n : ℕ, n ≤ 2 ^ 53 → ∀ x : ℝ, x = n → Rounding.binary64.rnd x = (x : EReal) := fun n hn x h => by
    rw [h]
    exact binary64_doubleAccurate.int n hn
  have m : Rounding.binary64.rnd (-3) = ((-3 : ℝ) : EReal) := by
    rw [Rounding.neg, i 3 (by norm_num) 3 (by norm_num)]
    rfl
  have ha : (lit 1 - .num ((-3 : ℝ) : EReal) * .num ((1 : ℝ) : EReal) - lit (1 / 2) * .num ((2 : ℝ) : EReal) * .num ((2 : ℝ) : EReal) * .num ((1 : ℝ) : EReal) : Dbl .binary64) =
      .num ((2 : ℝ) : EReal) := by
    have h : (lit (1 / 2) : Dbl .binary64) = .num ((1 / 2 : ℝ) : EReal) := by
      rw [Dbl.lit_def]
      push_cast
      rw [half_exact]
    rw [one_eq, h, Dbl.mul_coe, Dbl.mul_coe, show (-3 : ℝ) * 1 = -3 by norm_num, m, Dbl.sub_coe, show (1 : ℝ) - -3 = 4 by norm_num, i 4 (by norm_num) 4 (by norm_num),
      show (1 / 2 : ℝ) * 2 = 1 by norm_num, rnd_one, Dbl.mul_coe, one_mul, i 2 (by norm_num) 2 (by norm_num), Dbl.mul_coe, mul_one, i 2 (by norm_num) 2 (by norm_num),
      Dbl.sub_coe, show (4 : ℝ) - 2 = 2 by norm_num, i 2 (by norm_num) 2 (by norm_num)]
  have l0 : 0 ≤ Real.log 2 := Real.log_nonneg (by norm_num)
  have l1 : Real.log 2 ≤ 1 := by linarith [Real.log_le_sub_one_of_pos (show (0 : ℝ) < 2 by norm_num)]
  obtain ⟨w, hw, hw1⟩ := binary64_doubleAccurate.round (Real.log 2) (by rw [abs_of_nonneg l0]; exact l1.trans (by norm_num))
  rw [abs_of_nonneg l0] at hw1
  have hw2 : |w - Real.log 2| ≤ 2 ^ (-52 : ℤ) := by
    refine hw1.trans ((add_le_add (mul_le_mul_of_nonneg_left l1 (by positivity)) le_rfl).trans (by norm_num))
  have hw3 : |w| ≤ 2 := by
    have a := abs_add_le (w - Real.log 2) (Real.log 2)
    rw [sub_add_cancel, abs_of_nonneg l0] at a
    have : (2 : ℝ) ^ (-52 : ℤ) ≤ 1 := by norm_num
    linarith
  obtain ⟨omega, h1, h2, -⟩ := C100_varianceGamma_partial (G := ℕ) binary64_doubleAccurate (sigma₀ := 2) (nu := 1) (theta := -3) (a := 2) (w := w) (by norm_num)
    (by rw [abs_neg, abs_of_pos] <;> norm_num) ha (by norm_num) hw (hw3.trans (by norm_num))
  refine ⟨omega, h1, ?_⟩
  rw [div_one, one_mul, one_mul] at h2
  have a := abs_add_le (omega - w) (w - Real.log 2)
  rw [sub_add_sub_cancel] at a
  have b : (2 : ℝ) ^ (-51 : ℤ) * |w| ≤ 2 ^ (-51 : ℤ) * 2 := mul_le_mul_of_nonneg_left hw3 (by positivity)
  have c : (2 : ℝ) ^ (-51 : ℤ) * 2 + 2 ^ (-1000 : ℤ) + 2 ^ (-52 : ℤ) ≤ 2 ^ (-49 : ℤ) := by norm_num
  generalize (2 : ℝ) ^ (-51 : ℤ) * |w| = y at *
  linarith

end AcceptedModelsExample
end Verif
