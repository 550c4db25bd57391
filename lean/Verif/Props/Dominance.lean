import Verif.Props.PathDependent
import Verif.Spec.DominanceSpec
import Verif.Num.Binary64
import Mathlib.Tactic.Linarith
import Mathlib.Tactic.Ring

/-!
# C71: prices computed from the same random numbers respect the orderings between contracts

In rounded arithmetic, with NaN, infinities and overflow; and, over the reals, the bounds on spreads and convexity in the
strike.
-/

namespace Verif
open Spec

/-! ## What a pricer that returned has done -/

namespace MC
variable {F σ α : Type}

theorem draws_unique {sim : Eff σ α} {s s₁ s₂ : σ} {as bs : List α} (h : Draws sim s as s₁) :
    Draws sim s bs s₂ → as.length = bs.length → as = bs ∧ s₁ = s₂ := by
  induction h generalizing bs with
  | nil s => intro h hl; cases h with
    | nil => exact ⟨rfl, rfl⟩
    | cons => simp at hl
  | cons h t ih =>
    intro h' hl
    cases h' with
    | nil => simp at hl
    | cons h'' t'' =>
      rw [h] at h''
      cases h''
      obtain ⟨h1, h2⟩ := ih t'' (by simpa using hl)
      exact ⟨by rw [h1], h2⟩

theorem forN_inv [Add F] {sim : Eff σ α} {pp : α → Res F} : ∀ {N : Nat} {acc x : F} {s s' : σ},
    Eff.forN (payBody sim pp) N acc s = (.ok x, s') →
    ∃ as vals, Draws sim s as s' ∧ Pays pp as vals ∧ as.length = N ∧ x = vals.foldl (· + ·) acc := by
  intro N
  induction N with
  | zero => intro acc x s s' h; cases h; exact ⟨[], [], .nil _, .nil, rfl, rfl⟩
  | succ k ih =>
    intro acc x s s' h
    rcases hba : payBody sim pp acc s with ⟨r, s₁⟩
    cases r with
    | ok a₁ =>
      rw [Eff.forN_succ_ok hba] at h
      obtain ⟨as, vals, h1, h2, h3, h4⟩ := ih h
      unfold payBody at hba
      obtain ⟨a, s₂, ha, hb⟩ := bind_ok_inv hba
      obtain ⟨v, s₃, hv, hb⟩ := bind_ok_inv hb
      have hv1 : pp a = .ok v := by simpa using congrArg Prod.fst hv
      have hv2 : s₂ = s₃ := by simpa using congrArg Prod.snd hv
      cases hb
      subst hv2
      exact ⟨a :: as, v :: vals, .cons ha h1, .cons hv1 h2, by simp [h3], h4⟩
    | throw e => rw [Eff.forN_succ_throw hba] at h; cases h
    | ub => rw [Eff.forN_succ_ub hba] at h; cases h

variable [Fl F] [Add F] [Sub F] [Mul F] [Div F] [Neg F]

/-- A run that returned `x`: the rate that was read, the paths that were drawn and what they paid. -/
structure Ran (sim : Eff σ α) (getR : Eff σ F) (pp : α → Res F) (T : F) (N : Nat) (s s' : σ) (x : F)
    (r : F) (s₁ : σ) (as : List α) (vals : List F) : Prop where
  rate : getR s = (.ok r, s₁)
  draws : Draws sim s₁ as s'
  pays : Pays pp as vals
  len : as.length = N
  price : x = vals.foldl (· + ·) (lit 0) / lit (N : ℚ) * Fl.exp (-r * T)

theorem longPricer_inv {sim : Eff σ α} {getR : Eff σ F} {pp : α → Res F} {T : F} {N : Nat} {s s' : σ} {x : F}
    (h : longPricer sim getR pp T N s = (.ok x, s')) : ∃ r s₁ as vals, Ran sim getR pp T N s s' x r s₁ as vals := by
  unfold longPricer at h
  obtain ⟨r, s₁, hr, h⟩ := bind_ok_inv h
  obtain ⟨sum, s₂, hs, h⟩ := bind_ok_inv h
  cases h
  obtain ⟨as, vals, h1, h2, h3, h4⟩ := forN_inv hs
  exact ⟨r, s₁, as, vals, hr, h1, h2, h3, by rw [h4]; rfl⟩

theorem Ran.long {sim : Eff σ α} {getR : Eff σ F} {pp : α → Res F} {T : F} {N : Nat} {s s' : σ} {x r : F} {s₁ : σ}
    {as : List α} {vals : List F} (h : Ran sim getR pp T N s s' x r s₁ as vals) :
    longPricer sim getR pp T N s = (.ok x, s') := by
  obtain ⟨h1, h2, h3, h4, h5⟩ := h
  subst h4
  unfold longPricer
  rw [Eff.bind_of_ok h1, Eff.bind_of_ok (loop_eq h2 h3 _), h5]
  rfl

/-- Two runs of pricers that differ only in the payoff: the same rate, the same paths, the same final state. -/
theorem Ran.same {sim : Eff σ α} {getR : Eff σ F} {pp qq : α → Res F} {T : F} {N : Nat} {s s' s'' : σ} {x y r r' : F}
    {s₁ s₂ : σ} {as bs : List α} {vals wals : List F} (h : Ran sim getR pp T N s s' x r s₁ as vals)
    (h' : Ran sim getR qq T N s s'' y r' s₂ bs wals) : r = r' ∧ s₁ = s₂ ∧ as = bs ∧ s' = s'' := by
  have := h.rate.symm.trans h'.rate
  cases this
  obtain ⟨h1, h2⟩ := draws_unique h.draws h'.draws (h.len.trans h'.len.symm)
  exact ⟨rfl, rfl, h1, h2⟩

theorem intPricer_le {sim : Eff σ α} {getR : Eff σ F} {pp : α → Res F} {T : F} {N : Nat} {s s' : σ} {x : F}
    (h : intPricer sim getR pp T N s = (.ok x, s')) : N ≤ INT_MAX := by
  by_contra hN
  unfold MC.intPricer at h
  obtain ⟨r, s₁, _, h⟩ := bind_ok_inv h
  obtain ⟨sum, s₂, hs, h⟩ := bind_ok_inv h
  unfold Eff.forInt at hs
  obtain ⟨a, s₃, _, hs⟩ := bind_ok_inv hs
  rw [if_neg hN] at hs
  cases hs

end MC

/-! ## Ordered values in rounded arithmetic -/

namespace Dbl
variable {R : Rounding}

/-- One of the values is NaN, or both are at least 0 and the first is at most the second. -/
def Below (x y : Dbl R) : Prop := x = nan ∨ y = nan ∨ ∃ a b : EReal, x = num a ∧ y = num b ∧ 0 ≤ a ∧ a ≤ b

theorem Below.not_lt {x y : Dbl R} (h : Below x y) : Fl.lt y x = false := by
  rcases h with rfl | rfl | ⟨a, b, rfl, rfl, _, h⟩
  · simp
  · simp
  · simpa using h

theorem below_refl_of_notNeg {x : Dbl R} (h : NotNeg x) : Below x x := by
  cases x with
  | nan => exact .inl rfl
  | num a =>
    rcases h with h | h
    · cases h
    · exact .inr (.inr ⟨a, a, rfl, rfl, h, le_rfl⟩)

theorem below_zero {x : Dbl R} (h : NotNeg x) : Below (lit 0) x := by
  rcases h with rfl | h
  · exact .inr (.inl rfl)
  · cases x with
    | nan => exact h.elim
    | num a => exact .inr (.inr ⟨0, a, by simp, rfl, le_rfl, h⟩)

theorem below_add {x y x' y' : Dbl R} (h : Below x y) (h' : Below x' y') : Below (x + x') (y + y') := by
  rcases h with rfl | rfl | ⟨a, b, rfl, rfl, ha, hab⟩
  · left; simp
  · right; left; simp
  rcases h' with rfl | rfl | ⟨a', b', rfl, rfl, ha', hab'⟩
  · left; simp
  · right; left; simp
  have key : ∀ u v : EReal, 0 ≤ u → 0 ≤ v → ¬ ((u = ⊤ ∧ v = ⊥) ∨ (u = ⊥ ∧ v = ⊤)) := by
    rintro u v hu hv (⟨-, rfl⟩ | ⟨rfl, -⟩)
    · simp at hv
    · simp at hu
  right; right
  refine ⟨_, _, by rw [add_num, if_neg (key _ _ ha ha')], by rw [add_num, if_neg (key _ _ (ha.trans hab) (ha'.trans hab'))],
    R.rndE_nonneg (add_nonneg ha ha'), R.rndE_mono (add_le_add hab hab')⟩

theorem below_div {x y z : Dbl R} (h : Below x y) (hz : NotNeg z) : Below (x / z) (y / z) := by
  rcases h with rfl | rfl | ⟨a, b, rfl, rfl, ha, hab⟩
  · left; simp
  · right; left; simp
  rcases hz with rfl | hz
  · left; simp
  cases z with
  | nan => exact hz.elim
  | num c =>
    rw [nonneg_num] at hz
    by_cases hc : c = 0
    · subst hc
      by_cases ha0 : a = 0
      · left; simp [div_num, ha0]
      · have hapos : 0 < a := lt_of_le_of_ne ha (Ne.symm ha0)
        have hbpos : 0 < b := hapos.trans_le hab
        right; right
        exact ⟨⊤, ⊤, by simp [div_num, ha0, hapos], by simp [div_num, hbpos.ne', hbpos], le_top, le_rfl⟩
    · by_cases h1 : (a = ⊤ ∨ a = ⊥) ∧ (c = ⊤ ∨ c = ⊥)
      · left; rw [div_num, if_neg hc, if_pos h1]
      · by_cases h2 : (b = ⊤ ∨ b = ⊥) ∧ (c = ⊤ ∨ c = ⊥)
        · right; left; rw [div_num, if_neg hc, if_pos h2]
        · right; right
          exact ⟨_, _, by rw [div_num, if_neg hc, if_neg h1], by rw [div_num, if_neg hc, if_neg h2],
            R.rndE_nonneg (EReal.div_nonneg ha hz), R.rndE_mono (EReal.monotone_div_right_of_nonneg hz hab)⟩

theorem below_mul {x y z : Dbl R} (h : Below x y) (hz : NotNeg z) : Below (x * z) (y * z) := by
  rcases h with rfl | rfl | ⟨a, b, rfl, rfl, ha, hab⟩
  · left; simp
  · right; left; simp
  rcases hz with rfl | hz
  · left; simp
  cases z with
  | nan => exact hz.elim
  | num c =>
    rw [nonneg_num] at hz
    by_cases h1 : (a = 0 ∧ (c = ⊤ ∨ c = ⊥)) ∨ (c = 0 ∧ (a = ⊤ ∨ a = ⊥))
    · left; rw [mul_num, if_pos h1]
    · by_cases h2 : (b = 0 ∧ (c = ⊤ ∨ c = ⊥)) ∨ (c = 0 ∧ (b = ⊤ ∨ b = ⊥))
      · right; left; rw [mul_num, if_pos h2]
      · right; right
        exact ⟨_, _, by rw [mul_num, if_neg h1], by rw [mul_num, if_neg h2],
          R.rndE_nonneg (mul_nonneg ha hz), R.rndE_mono (mul_le_mul_of_nonneg_right hab hz)⟩

/-- `max(x - K, 0)` decreases in `K`. -/
theorem below_call {x K₁ K₂ : Dbl R} (h : Fl.le K₁ K₂ = true) :
    Below (Fl.max (x - K₂) (lit 0)) (Fl.max (x - K₁) (lit 0)) := by
  cases x with
  | nan => left; simp
  | num x =>
    cases K₁ with
    | nan => simp at h
    | num k₁ =>
      cases K₂ with
      | nan => simp at h
      | num k₂ =>
        rw [le_num] at h
        simp only [sub_def, neg_num, add_num, lit_zero]
        split
        · left; simp
        · split
          · right; left; simp
          · right; right
            refine ⟨_, _, max_num _ _, max_num _ _, le_max_right _ _, max_le_max ?_ le_rfl⟩
            exact R.rndE_mono (add_le_add le_rfl (EReal.neg_le_neg_iff.mpr h))

/-- `max(K - x, 0)` increases in `K`. -/
theorem below_put {x K₁ K₂ : Dbl R} (h : Fl.le K₁ K₂ = true) :
    Below (Fl.max (K₁ - x) (lit 0)) (Fl.max (K₂ - x) (lit 0)) := by
  cases x with
  | nan => left; simp
  | num x =>
    cases K₁ with
    | nan => simp at h
    | num k₁ =>
      cases K₂ with
      | nan => simp at h
      | num k₂ =>
        rw [le_num] at h
        simp only [sub_def, neg_num, add_num, lit_zero]
        split
        · left; simp
        · split
          · right; left; simp
          · right; right
            refine ⟨_, _, max_num _ _, max_num _ _, le_max_right _ _, max_le_max ?_ le_rfl⟩
            exact R.rndE_mono (add_le_add h le_rfl)

/-- Payments of 0 or 1. -/
theorem below_ind {p q : Bool} (h : p = true → q = true) :
    Below (if p then lit 1 else lit 0 : Dbl R) (if q then lit 1 else lit 0) := by
  cases p
  · cases q
    · exact below_refl_of_notNeg (by simpa using notNeg_lit (R := R) (le_refl 0))
    · exact below_zero (notNeg_lit (by norm_num))
  · rw [h rfl]
    exact below_refl_of_notNeg (notNeg_lit (by norm_num))

theorem le_trans' {x y z : Dbl R} (h : Fl.le x y = true) (h' : Fl.le y z = true) : Fl.le x z = true := by
  cases x <;> cases y <;> cases z <;> simp_all
  exact h.trans h'

theorem lt_of_le_of_lt' {x y z : Dbl R} (h : Fl.le x y = true) (h' : Fl.lt y z = true) : Fl.lt x z = true := by
  cases x <;> cases y <;> cases z <;> simp_all
  exact h.trans_lt h'

theorem lt_of_lt_of_le' {x y z : Dbl R} (h : Fl.lt x y = true) (h' : Fl.le y z = true) : Fl.lt x z = true := by
  cases x <;> cases y <;> cases z <;> simp_all
  exact h.trans_le h'

end Dbl

open Dbl (Below)

/-- The payoff functions of the two contracts are ordered. -/
theorem dominated_eval1 {R : Rounding} {p q : Payoff (Dbl R)} (h : Dominated p q) (S : Dbl R) :
    ∃ v w, p.eval1 S = .ok v ∧ q.eval1 S = .ok w ∧ Below v w := by
  cases h with
  | call h => exact ⟨_, _, rfl, rfl, Dbl.below_call h⟩
  | put h => exact ⟨_, _, rfl, rfl, Dbl.below_put h⟩
  | digitalCall h => exact ⟨_, _, rfl, rfl, Dbl.below_ind fun h' => Dbl.lt_of_le_of_lt' h h'⟩
  | digitalPut h => exact ⟨_, _, rfl, rfl, Dbl.below_ind fun h' => Dbl.lt_of_lt_of_le' h' h⟩
  | doubleDigital h h' =>
    refine ⟨_, _, rfl, rfl, Dbl.below_ind fun h'' => ?_⟩
    rw [Bool.and_eq_true] at h'' ⊢
    exact ⟨Dbl.le_trans' h h''.1, Dbl.le_trans' h''.2 h'⟩

theorem dominated_type {F : Type} [Fl F] {p q : Payoff F} (h : Dominated p q) : p.payoffType = q.payoffType := by
  cases h <;> rfl

section
variable {R : Rounding} {σ α : Type}

theorem foldl_below {vals wals : List (Dbl R)} (h : List.Forall₂ Below vals wals) : ∀ {a b : Dbl R}, Below a b →
    Below (vals.foldl (· + ·) a) (wals.foldl (· + ·) b) := by
  induction h with
  | nil => intro a b h; exact h
  | cons h _ ih => intro a b hab; exact ih (Dbl.below_add hab h)

theorem pays_below {pp qq : α → Res (Dbl R)} (h : ∀ a v w, pp a = .ok v → qq a = .ok w → Below v w) {as : List α} :
    ∀ {vals wals : List (Dbl R)}, Pays pp as vals → Pays qq as wals → List.Forall₂ Below vals wals := by
  induction as with
  | nil => intro vals wals h1 h2; cases h1; cases h2; exact .nil
  | cons a as ih =>
    intro vals wals h1 h2
    cases h1 with
    | cons hv h1 =>
      cases h2 with
      | cons hw h2 => exact .cons (h _ _ _ hv hw) (ih h1 h2)

theorem long_below {sim : Eff σ α} {getR : Eff σ (Dbl R)} {pp qq : α → Res (Dbl R)}
    (h : ∀ a v w, pp a = .ok v → qq a = .ok w → Below v w) {T x y : Dbl R} {N : Nat} {s s' s'' : σ}
    (hp : MC.longPricer sim getR pp T N s = (.ok x, s')) (hq : MC.longPricer sim getR qq T N s = (.ok y, s'')) :
    Below x y ∧ s' = s'' := by
  obtain ⟨r, s₁, as, vals, h1⟩ := MC.longPricer_inv hp
  obtain ⟨r', s₂, bs, wals, h2⟩ := MC.longPricer_inv hq
  obtain ⟨rfl, rfl, rfl, rfl⟩ := h1.same h2
  refine ⟨?_, rfl⟩
  rw [h1.price, h2.price]
  exact Dbl.below_mul (Dbl.below_div (foldl_below (pays_below h h1.pays h2.pays)
    (Dbl.below_zero (Dbl.notNeg_lit (le_refl 0)))) (Dbl.notNeg_lit (by positivity))) (Dbl.notNeg_exp _)

theorem int_below {sim : Eff σ α} {getR : Eff σ (Dbl R)} {pp qq : α → Res (Dbl R)}
    (h : ∀ a v w, pp a = .ok v → qq a = .ok w → Below v w) {T x y : Dbl R} {N : Nat} {s s' s'' : σ}
    (hp : MC.intPricer sim getR pp T N s = (.ok x, s')) (hq : MC.intPricer sim getR qq T N s = (.ok y, s'')) :
    Below x y ∧ s' = s'' := by
  have hN := MC.intPricer_le hp
  rw [MC.intPricer_eq_long hN] at hp hq
  exact long_below h hp hq

end

theorem long_ok_of_ok {F σ α : Type} [Fl F] [Add F] [Sub F] [Mul F] [Div F] [Neg F] {sim : Eff σ α} {getR : Eff σ F}
    {pp qq : α → Res F} (h : ∀ a v, pp a = .ok v → ∃ w, qq a = .ok w) {T x : F} {N : Nat} {s s' : σ}
    (hp : MC.longPricer sim getR pp T N s = (.ok x, s')) : ∃ y, MC.longPricer sim getR qq T N s = (.ok y, s') := by
  obtain ⟨r, s₁, as, vals, h1⟩ := MC.longPricer_inv hp
  have : ∀ {as : List α} {vals : List F}, Pays pp as vals → ∃ wals, Pays qq as wals := by
    intro as vals hv
    induction hv with
    | nil => exact ⟨[], .nil⟩
    | cons hv _ ih =>
      obtain ⟨w, hw⟩ := h _ _ hv
      obtain ⟨ws, hws⟩ := ih
      exact ⟨w :: ws, .cons hw hws⟩
  obtain ⟨wals, hw⟩ := this h1.pays
  exact ⟨_, MC.Ran.long ⟨h1.rate, h1.draws, hw, h1.len, rfl⟩⟩

theorem int_ok_of_ok {F σ α : Type} [Fl F] [Add F] [Sub F] [Mul F] [Div F] [Neg F] {sim : Eff σ α} {getR : Eff σ F}
    {pp qq : α → Res F} (h : ∀ a v, pp a = .ok v → ∃ w, qq a = .ok w) {T x : F} {N : Nat} {s s' : σ}
    (hp : MC.intPricer sim getR pp T N s = (.ok x, s')) : ∃ y, MC.intPricer sim getR qq T N s = (.ok y, s') := by
  have hN := MC.intPricer_le hp
  rw [MC.intPricer_eq_long hN] at hp ⊢
  exact long_ok_of_ok h hp

/-! ## The pricers -/

section
variable {R : Rounding} {σ : Type}

/-- What the pricer of a path does with two contracts that are ordered. -/
def PathBelow {α : Type} (pp qq : α → Res (Dbl R)) : Prop :=
  ∀ a v, pp a = .ok v → ∃ w, qq a = .ok w ∧ Below v w

theorem PathBelow.ok {α : Type} {pp qq : α → Res (Dbl R)} (h : PathBelow pp qq) (a : α) (v : Dbl R) (hv : pp a = .ok v) :
    ∃ w, qq a = .ok w := (h a v hv).imp fun _ h => h.1

theorem PathBelow.below {α : Type} {pp qq : α → Res (Dbl R)} (h : PathBelow pp qq) (a : α) (v w : Dbl R)
    (hv : pp a = .ok v) (hw : qq a = .ok w) : Below v w := by
  obtain ⟨w', hw', hb⟩ := h a v hv
  rw [hw] at hw'
  cases hw'
  exact hb

theorem PathBelow.int {α : Type} {sim : Eff σ α} {getR : Eff σ (Dbl R)} {pp qq : α → Res (Dbl R)} (h : PathBelow pp qq)
    {T x : Dbl R} {N : Nat} {s s' : σ} (hp : MC.intPricer sim getR pp T N s = (.ok x, s')) :
    ∃ y, MC.intPricer sim getR qq T N s = (.ok y, s') ∧ Fl.lt y x = false := by
  obtain ⟨y, hy⟩ := int_ok_of_ok h.ok hp
  exact ⟨y, hy, (int_below h.below hp hy).1.not_lt⟩

theorem PathBelow.long {α : Type} {sim : Eff σ α} {getR : Eff σ (Dbl R)} {pp qq : α → Res (Dbl R)} (h : PathBelow pp qq)
    {T x : Dbl R} {N : Nat} {s s' : σ} (hp : MC.longPricer sim getR pp T N s = (.ok x, s')) :
    ∃ y, MC.longPricer sim getR qq T N s = (.ok y, s') ∧ Fl.lt y x = false := by
  obtain ⟨y, hy⟩ := long_ok_of_ok h.ok hp
  exact ⟨y, hy, (long_below h.below hp hy).1.not_lt⟩

theorem pathBelow_eval1 {p q : Payoff (Dbl R)} (h : Dominated p q) : PathBelow p.eval1 q.eval1 := by
  intro S v hv
  obtain ⟨v', w, h1, h2, h3⟩ := dominated_eval1 h S
  rw [hv] at h1
  cases h1
  exact ⟨w, h2, h3⟩

/-- **C71.** In rounded arithmetic, with NaN, infinities and overflow: if `p` is dominated by `q`, then started from the same
state of the generator the single path pricer that returns for `p` also returns for `q`, leaves the generator in the same
state, and the price of `q` is not less than the price of `p`. -/
theorem C71_singlePath (src : PathSource σ (Dbl R)) (getR : Eff σ (Dbl R)) {p q : Payoff (Dbl R)} (h : Dominated p q)
    {T x : Dbl R} {N : Nat} {s s' : σ} (hp : MC.singlePath src getR p.eval1 T N s = (.ok x, s')) :
    ∃ y, MC.singlePath src getR q.eval1 T N s = (.ok y, s') ∧ Fl.lt y x = false := by
  rw [MC.singlePath_eq] at hp ⊢
  exact (pathBelow_eval1 h).int hp

/-- In doubles: strikes 2 and 3, two paths ending at 4 and at 1. -/
example : ∃ x y, MC.singlePath (replay 1) (Eff.lift (.ok (.num 0 : Dbl .binary64))) (Payoff.vanilla .call (.num 3)).eval1
      (.num 1) 2 [[.num 4], [.num 1]] = (.ok x, []) ∧
    MC.singlePath (replay 1) (Eff.lift (.ok (.num 0 : Dbl .binary64))) (Payoff.vanilla .call (.num 2)).eval1
      (.num 1) 2 [[.num 4], [.num 1]] = (.ok y, []) ∧ Fl.lt y x = false := by
  have h := C23_singlePath (replay 1) (Eff.lift (.ok (.num 0 : Dbl .binary64))) (Payoff.vanilla .call (.num 3)).eval1
    (T := .num 1) rfl (prices := [.num 4, .num 1]) (s := [[.num 4], [.num 1]]) (.cons rfl (.cons rfl (.nil _)))
    (by simp [INT_MAX]) (.cons rfl (.cons rfl .nil))
  obtain ⟨y, hy, hlt⟩ := C71_singlePath (replay 1) _ (.call (K₁ := .num 2) (by
    rw [Dbl.le_num]; exact_mod_cast (by norm_num : (2 : ℝ) ≤ 3))) h
  exact ⟨_, y, h, hy, hlt⟩

/-- **C71.** The same for the two Asian pricers. -/
theorem C71_asian (k : MC.AsianKind) (src : PathSource σ (Dbl R)) (getR : Eff σ (Dbl R)) {p q : Payoff (Dbl R)}
    (h : Dominated p q) {T x : Dbl R} {N : Nat} {s s' : σ} (hp : MC.asian k src getR p.eval1 T N s = (.ok x, s')) :
    ∃ y, MC.asian k src getR q.eval1 T N s = (.ok y, s') ∧ Fl.lt y x = false := by
  rw [MC.asian_eq] at hp ⊢
  refine PathBelow.long (fun S v hv => ?_) hp
  unfold MC.asianPath at hv ⊢
  obtain ⟨a, ha, hv⟩ := Res.bind_eq_ok.mp hv
  obtain ⟨w, hw, hb⟩ := pathBelow_eval1 h _ _ hv
  exact ⟨w, Res.bind_eq_ok.mpr ⟨a, ha, hw⟩, hb⟩

/-- Digital puts with strikes 2 and 3 on one path of two prices. -/
example : ∃ x y, MC.asian .geometric (replay 2) (Eff.lift (.ok (.num 0 : Dbl .binary64)))
      (Payoff.digital .put (.num 2)).eval1 (.num 1) 1 [[.num 4, .num 1]] = (.ok x, []) ∧
    MC.asian .geometric (replay 2) (Eff.lift (.ok (.num 0 : Dbl .binary64)))
      (Payoff.digital .put (.num 3)).eval1 (.num 1) 1 [[.num 4, .num 1]] = (.ok y, []) ∧ Fl.lt y x = false := by
  obtain ⟨x, h⟩ : ∃ x, MC.asian .geometric (replay 2) (Eff.lift (.ok (.num 0 : Dbl .binary64)))
      (Payoff.digital .put (.num 2)).eval1 (.num 1) 1 [[.num 4, .num 1]] = (.ok x, []) := ⟨_, rfl⟩
  obtain ⟨y, hy, hlt⟩ := C71_asian .geometric (replay 2) _ (.digitalPut (K₂ := .num 3) (by
    rw [Dbl.le_num]; exact_mod_cast (by norm_num : (2 : ℝ) ≤ 3))) h
  exact ⟨x, y, h, hy, hlt⟩

/-- **C71.** The same for the two barrier pricers, for any way of telling whether the barrier is touched. -/
theorem C71_barrier (k : MC.KnockKind) (src : PathSource σ (Dbl R)) (getR : Eff σ (Dbl R)) (isActive : Dbl R → Bool)
    {p q : Payoff (Dbl R)} (h : Dominated p q) {T x : Dbl R} {N : Nat} {s s' : σ}
    (hp : MC.barrier k src getR isActive p.eval1 T N s = (.ok x, s')) :
    ∃ y, MC.barrier k src getR isActive q.eval1 T N s = (.ok y, s') ∧ Fl.lt y x = false := by
  rw [MC.barrier_eq] at hp ⊢
  refine PathBelow.int (fun S v hv => ?_) hp
  unfold MC.barrierPath at hv ⊢
  obtain ⟨a, ha, hv⟩ := Res.bind_eq_ok.mp hv
  obtain ⟨l, hl, hv⟩ := Res.bind_eq_ok.mp hv
  have hz : Below (lit 0 : Dbl R) (lit 0) := Dbl.below_zero (Dbl.notNeg_lit (le_refl 0))
  have : ∃ w, k.payoff q.eval1 l a = .ok w ∧ Below v w := by
    cases k <;> cases a <;> simp only [MC.KnockKind.payoff, if_true, if_false, Bool.false_eq_true] at hv ⊢
    · cases hv; exact ⟨_, rfl, hz⟩
    · exact pathBelow_eval1 h _ _ hv
    · exact pathBelow_eval1 h _ _ hv
    · cases hv; exact ⟨_, rfl, hz⟩
  obtain ⟨w, hw, hb⟩ := this
  exact ⟨w, Res.bind_eq_ok.mpr ⟨a, ha, Res.bind_eq_ok.mpr ⟨l, hl, hw⟩⟩, hb⟩

/-- Double digitals on nested intervals, with the barrier always touched. -/
example : ∃ x y, MC.barrier .knockIn (replay 2) (Eff.lift (.ok (.num 0 : Dbl .binary64))) (fun _ => true)
      (Payoff.doubleDigital (.num 2) (.num 3)).eval1 (.num 1) 1 [[.num 4, .num 1]] = (.ok x, []) ∧
    MC.barrier .knockIn (replay 2) (Eff.lift (.ok (.num 0 : Dbl .binary64))) (fun _ => true)
      (Payoff.doubleDigital (.num 1) (.num 3)).eval1 (.num 1) 1 [[.num 4, .num 1]] = (.ok y, []) ∧
    Fl.lt y x = false := by
  obtain ⟨x, h⟩ : ∃ x, MC.barrier .knockIn (replay 2) (Eff.lift (.ok (.num 0 : Dbl .binary64))) (fun _ => true)
      (Payoff.doubleDigital (.num 2) (.num 3)).eval1 (.num 1) 1 [[.num 4, .num 1]] = (.ok x, []) := ⟨_, rfl⟩
  obtain ⟨y, hy, hlt⟩ := C71_barrier .knockIn (replay 2) _ (fun _ => true) (.doubleDigital (L' := .num 1) (U' := .num 3)
    (by rw [Dbl.le_num]; exact_mod_cast (by norm_num : (1 : ℝ) ≤ 2)) (by rw [Dbl.le_num])) h
  exact ⟨x, y, h, hy, hlt⟩

/-- **C71.** The same for the lookback pricer with a fixed strike. -/
theorem C71_lookback (src : PathSource σ (Dbl R)) (getR : Eff σ (Dbl R)) {p q : Payoff (Dbl R)} (h : Dominated p q)
    {T x : Dbl R} {N : Nat} {s s' : σ} (hp : MC.lookback .fixed src getR p T N s = (.ok x, s')) :
    ∃ y, MC.lookback .fixed src getR q T N s = (.ok y, s') ∧ Fl.lt y x = false := by
  rw [MC.lookback_eq] at hp ⊢
  refine PathBelow.int (fun S v hv => ?_) hp
  unfold MC.lookbackPath at hv ⊢
  obtain ⟨a, ha, hv⟩ := Res.bind_eq_ok.mp hv
  obtain ⟨l, hl, hv⟩ := Res.bind_eq_ok.mp hv
  have : ∃ w, MC.LookbackKind.payoff q .fixed l a.1 a.2 = .ok w ∧ Below v w := by
    simp only [MC.LookbackKind.payoff] at hv ⊢
    rw [← dominated_type h]
    split at hv <;> rename_i hc
    · rw [if_pos hc]; exact pathBelow_eval1 h _ _ hv
    · rw [if_neg hc]; exact pathBelow_eval1 h _ _ hv
  obtain ⟨w, hw, hb⟩ := this
  exact ⟨w, Res.bind_eq_ok.mpr ⟨a, ha, Res.bind_eq_ok.mpr ⟨l, hl, hw⟩⟩, hb⟩

/-- Puts with strikes 2 and 3 on one path of two prices. -/
example : ∃ x y, MC.lookback .fixed (replay 2) (Eff.lift (.ok (.num 0 : Dbl .binary64)))
      (Payoff.vanilla .put (.num 2)) (.num 1) 1 [[.num 4, .num 1]] = (.ok x, []) ∧
    MC.lookback .fixed (replay 2) (Eff.lift (.ok (.num 0 : Dbl .binary64)))
      (Payoff.vanilla .put (.num 3)) (.num 1) 1 [[.num 4, .num 1]] = (.ok y, []) ∧ Fl.lt y x = false := by
  obtain ⟨x, h⟩ : ∃ x, MC.lookback .fixed (replay 2) (Eff.lift (.ok (.num 0 : Dbl .binary64)))
      (Payoff.vanilla .put (.num 2)) (.num 1) 1 [[.num 4, .num 1]] = (.ok x, []) := ⟨_, rfl⟩
  obtain ⟨y, hy, hlt⟩ := C71_lookback (replay 2) _ (.put (K₂ := .num 3) (by
    rw [Dbl.le_num]; exact_mod_cast (by norm_num : (2 : ℝ) ≤ 3))) h
  exact ⟨x, y, h, hy, hlt⟩

/-! ### Moving the barrier -/

theorem touched_mono {B B' : Dbl R} {d : BarrierDirection} (h : EasierToTouch B B' (d = .up)) (S : Dbl R)
    (hS : OptionModel.barrierTouched B d S = true) : OptionModel.barrierTouched B' d S = true := by
  unfold OptionModel.barrierTouched at hS ⊢
  unfold EasierToTouch at h
  by_cases hd : d = .up
  · simp only [hd, if_true, decide_true] at *
    exact Dbl.le_trans' h hS
  · simp only [hd, if_false, decide_false, Bool.false_eq_true] at *
    exact Dbl.le_trans' hS h

theorem scan_knockIn_mono {F : Type} [Fl F] [Add F] [Sub F] [Mul F] [Div F] [Neg F] {act act' : F → Bool}
    (h : ∀ S, act S = true → act' S = true) (S : List F) : ∀ (k t : Nat) (a a' b b' : Bool), (a = true → a' = true) →
    MC.scan (MC.KnockKind.knockIn.check act) S k t a = .ok b → MC.scan (MC.KnockKind.knockIn.check act') S k t a' = .ok b' →
    b = true → b' = true := by
  intro k
  induction k with
  | zero =>
    intro t a a' b b' haa h1 h2
    cases h1; cases h2; exact haa
  | succ k ih =>
    intro t a a' b b' haa h1 h2
    unfold MC.scan at h1 h2
    obtain ⟨x, hx, h1⟩ := Res.bind_eq_ok.mp h1
    obtain ⟨x', hx', h2⟩ := Res.bind_eq_ok.mp h2
    rw [hx] at hx'; cases hx'
    simp only [MC.KnockKind.check, Bool.false_eq_true, if_false] at h1 h2
    split at h1
    · rename_i ht
      rw [if_pos ht] at h2
      refine ih _ _ _ _ _ ?_ h1 h2
      intro hh
      split at hh
      · rename_i hax; rw [if_pos (h _ hax)]
      · split
        · rfl
        · exact haa hh
    · cases h1

theorem scan_knockOut_mono {F : Type} [Fl F] [Add F] [Sub F] [Mul F] [Div F] [Neg F] {act act' : F → Bool}
    (h : ∀ S, act S = false → act' S = false) (S : List F) : ∀ (k t : Nat) (a a' b b' : Bool), (a = true → a' = true) →
    MC.scan (MC.KnockKind.knockOut.check act) S k t a = .ok b →
    MC.scan (MC.KnockKind.knockOut.check act') S k t a' = .ok b' → b = true → b' = true := by
  intro k
  induction k with
  | zero =>
    intro t a a' b b' haa h1 h2
    cases h1; cases h2; exact haa
  | succ k ih =>
    intro t a a' b b' haa h1 h2
    unfold MC.scan at h1 h2
    obtain ⟨x, hx, h1⟩ := Res.bind_eq_ok.mp h1
    obtain ⟨x', hx', h2⟩ := Res.bind_eq_ok.mp h2
    rw [hx] at hx'; cases hx'
    simp only [MC.KnockKind.check] at h1 h2
    cases h2x : act' x
    · simp [h2x] at h2
      subst h2
      intro _; rfl
    · cases h1x : act x
      · rw [h _ h1x] at h2x; cases h2x
      · simp only [h1x, h2x, Bool.not_true, Bool.false_eq_true, if_false] at h1 h2
        split at h1
        · rename_i ht
          rw [if_pos ht] at h2
          exact ih _ _ _ _ _ haa h1 h2
        · cases h1

/-- **C71.** A knock-out option whose barrier is easier to touch, `B'`, is not worth more than the one with barrier `B`,
whatever the rounding and whatever the contract. -/
theorem C71_knockOut (src : PathSource σ (Dbl R)) (getR : Eff σ (Dbl R)) (p : Payoff (Dbl R)) {B B' : Dbl R}
    {d : BarrierDirection} (h : EasierToTouch B B' (d = .up)) {T x y : Dbl R} {N : Nat} {s s' s'' : σ}
    (hx : MC.barrier .knockOut src getR (OptionModel.knockOutIsActive B' d) p.eval1 T N s = (.ok x, s'))
    (hy : MC.barrier .knockOut src getR (OptionModel.knockOutIsActive B d) p.eval1 T N s = (.ok y, s'')) :
    Fl.lt y x = false ∧ s' = s'' := by
  rw [MC.barrier_eq] at hx hy
  suffices h : _ by exact (int_below h hx hy).imp_left Below.not_lt
  intro S v w hv hw
  unfold MC.barrierPath at hv hw
  obtain ⟨a, ha, hv⟩ := Res.bind_eq_ok.mp hv
  obtain ⟨l, hl, hv⟩ := Res.bind_eq_ok.mp hv
  obtain ⟨b, hb, hw⟩ := Res.bind_eq_ok.mp hw
  obtain ⟨l', hl', hw⟩ := Res.bind_eq_ok.mp hw
  rw [hl] at hl'; cases hl'
  have hab : b = true → a = true := scan_knockOut_mono (fun S hS => by
    simp only [OptionModel.knockOutIsActive, Bool.not_eq_false'] at hS ⊢
    exact touched_mono h S hS) S _ _ _ _ _ _ id hb ha
  simp only [MC.KnockKind.payoff] at hv hw
  cases a
  · cases b
    · simp only [Bool.false_eq_true, if_false] at hv hw
      rw [hv] at hw; cases hw
      exact Dbl.below_refl_of_notNeg (eval1_notNeg p _ _ hv)
    · exact absurd (hab rfl) (by simp)
  · cases hv
    refine Dbl.below_zero ?_
    cases b
    · exact eval1_notNeg p _ _ hw
    · cases hw; exact Dbl.notNeg_lit (le_refl 0)

/-- Up-and-out calls with barriers 3 and 5 on a path that goes through 4. -/
example : ∃ x y, MC.barrier .knockOut (replay 2) (Eff.lift (.ok (.num 0 : Dbl .binary64)))
      (OptionModel.knockOutIsActive (.num (3 : ℝ)) .up) (Payoff.vanilla .call (.num 1)).eval1 (.num 1) 1
      [[.num (4 : ℝ), .num (2 : ℝ)]] = (.ok x, []) ∧
    MC.barrier .knockOut (replay 2) (Eff.lift (.ok (.num 0 : Dbl .binary64)))
      (OptionModel.knockOutIsActive (.num (5 : ℝ)) .up) (Payoff.vanilla .call (.num 1)).eval1 (.num 1) 1
      [[.num (4 : ℝ), .num (2 : ℝ)]] = (.ok y, []) ∧ Fl.lt y x = false := by
  have hx := C20_knockOut (replay 2) (Eff.lift (.ok (.num 0 : Dbl .binary64))) (Payoff.vanilla .call (.num 1)).eval1
    (.num (3 : ℝ)) .up (T := .num 1) rfl (replay_draws 2 _ [[.num (4 : ℝ), .num (2 : ℝ)]]) (by simp [INT_MAX])
    (by simp [replay, INT_MAX]) (by simp [replay]) (vals := [lit 0])
    (.cons ⟨by simp, fun h => absurd (⟨_, List.mem_cons_self .., by
      rw [Dbl.ge_num]; exact_mod_cast (by norm_num : (3 : ℝ) ≤ 4)⟩) h, fun _ => rfl⟩ .nil)
  have hy := C20_knockOut (replay 2) (Eff.lift (.ok (.num 0 : Dbl .binary64))) (Payoff.vanilla .call (.num 1)).eval1
    (.num (5 : ℝ)) .up (T := .num 1) rfl (replay_draws 2 _ [[.num (4 : ℝ), .num (2 : ℝ)]]) (by simp [INT_MAX])
    (by simp [replay, INT_MAX]) (by simp [replay]) (vals := [_])
    (.cons ⟨by simp, fun _ => rfl, fun h => by
      exfalso
      obtain ⟨z, hz, h⟩ := h
      rcases List.mem_cons.mp hz with rfl | hz
      · replace h := (Dbl.ge_num _ _).mp h
        exact absurd (EReal.coe_le_coe_iff.mp h) (by norm_num)
      · rcases List.mem_cons.mp hz with rfl | hz
        · replace h := (Dbl.ge_num _ _).mp h
          exact absurd (EReal.coe_le_coe_iff.mp h) (by norm_num)
        · cases hz⟩ .nil)
  exact ⟨_, _, hx, hy, (C71_knockOut (replay 2) _ _ (by
    simp only [EasierToTouch, decide_true, if_true]
    rw [Dbl.le_num]; exact_mod_cast (by norm_num : (3 : ℝ) ≤ 5)) hx hy).1⟩

/-- **C71.** A knock-in option whose barrier is easier to touch, `B'`, is not worth less than the one with barrier `B`. -/
theorem C71_knockIn (src : PathSource σ (Dbl R)) (getR : Eff σ (Dbl R)) (p : Payoff (Dbl R)) {B B' : Dbl R}
    {d : BarrierDirection} (h : EasierToTouch B B' (d = .up)) {T x y : Dbl R} {N : Nat} {s s' s'' : σ}
    (hx : MC.barrier .knockIn src getR (OptionModel.knockInIsActive B d) p.eval1 T N s = (.ok x, s'))
    (hy : MC.barrier .knockIn src getR (OptionModel.knockInIsActive B' d) p.eval1 T N s = (.ok y, s'')) :
    Fl.lt y x = false ∧ s' = s'' := by
  rw [MC.barrier_eq] at hx hy
  suffices h : _ by exact (int_below h hx hy).imp_left Below.not_lt
  intro S v w hv hw
  unfold MC.barrierPath at hv hw
  obtain ⟨a, ha, hv⟩ := Res.bind_eq_ok.mp hv
  obtain ⟨l, hl, hv⟩ := Res.bind_eq_ok.mp hv
  obtain ⟨b, hb, hw⟩ := Res.bind_eq_ok.mp hw
  obtain ⟨l', hl', hw⟩ := Res.bind_eq_ok.mp hw
  rw [hl] at hl'; cases hl'
  have hab : a = true → b = true := scan_knockIn_mono (fun S hS => touched_mono h S hS) S _ _ _ _ _ _ id ha hb
  simp only [MC.KnockKind.payoff] at hv hw
  cases a
  · cases hv
    refine Dbl.below_zero ?_
    cases b
    · cases hw; exact Dbl.notNeg_lit (le_refl 0)
    · exact eval1_notNeg p _ _ hw
  · rw [hab rfl] at hw
    simp only [if_true] at hv hw
    rw [hv] at hw; cases hw
    exact Dbl.below_refl_of_notNeg (eval1_notNeg p _ _ hv)

/-- Up-and-in calls with barriers 5 and 3 on a path that goes through 4. -/
example : ∃ x y, MC.barrier .knockIn (replay 2) (Eff.lift (.ok (.num 0 : Dbl .binary64)))
      (OptionModel.knockInIsActive (.num (5 : ℝ)) .up) (Payoff.vanilla .call (.num 1)).eval1 (.num 1) 1
      [[.num (4 : ℝ), .num (2 : ℝ)]] = (.ok x, []) ∧
    MC.barrier .knockIn (replay 2) (Eff.lift (.ok (.num 0 : Dbl .binary64)))
      (OptionModel.knockInIsActive (.num (3 : ℝ)) .up) (Payoff.vanilla .call (.num 1)).eval1 (.num 1) 1
      [[.num (4 : ℝ), .num (2 : ℝ)]] = (.ok y, []) ∧ Fl.lt y x = false := by
  have hy := C20_knockIn (replay 2) (Eff.lift (.ok (.num 0 : Dbl .binary64))) (Payoff.vanilla .call (.num 1)).eval1
    (.num (3 : ℝ)) .up (T := .num 1) rfl (replay_draws 2 _ [[.num (4 : ℝ), .num (2 : ℝ)]]) (by simp [INT_MAX])
    (by simp [replay, INT_MAX]) (by simp [replay]) (vals := [_])
    (.cons ⟨by simp, fun _ => rfl, fun h => absurd (⟨_, List.mem_cons_self .., by
      rw [Dbl.ge_num]; exact_mod_cast (by norm_num : (3 : ℝ) ≤ 4)⟩) h⟩ .nil)
  have hx := C20_knockIn (replay 2) (Eff.lift (.ok (.num 0 : Dbl .binary64))) (Payoff.vanilla .call (.num 1)).eval1
    (.num (5 : ℝ)) .up (T := .num 1) rfl (replay_draws 2 _ [[.num (4 : ℝ), .num (2 : ℝ)]]) (by simp [INT_MAX])
    (by simp [replay, INT_MAX]) (by simp [replay]) (vals := [lit 0])
    (.cons ⟨by simp, (fun h => by
      exfalso
      obtain ⟨z, hz, h⟩ := h
      rcases List.mem_cons.mp hz with rfl | hz
      · replace h := (Dbl.ge_num _ _).mp h
        exact absurd (EReal.coe_le_coe_iff.mp h) (by norm_num)
      · rcases List.mem_cons.mp hz with rfl | hz
        · replace h := (Dbl.ge_num _ _).mp h
          exact absurd (EReal.coe_le_coe_iff.mp h) (by norm_num)
        · cases hz), fun _ => rfl⟩ .nil)
  exact ⟨_, _, hx, hy, (C71_knockIn (replay 2) _ _ (by
    simp only [EasierToTouch, decide_true, if_true]
    rw [Dbl.le_num]; exact_mod_cast (by norm_num : (3 : ℝ) ≤ 5)) hx hy).1⟩

end

/-! ## Spreads and convexity over the reals -/

section
variable {σ : Type}

/-- The single path, Asian and barrier pricers as functions of the payoff, everything else fixed. -/
def OneOf (src : PathSource σ ℝ) (getR : Eff σ ℝ) (T : ℝ) (N : Nat) (run : (ℝ → Res ℝ) → Eff σ ℝ) : Prop :=
  (run = fun pay => MC.singlePath src getR pay T N) ∨
  (∃ k, run = fun pay => MC.asian k src getR pay T N) ∨
  (∃ k isActive, run = fun pay => MC.barrier k src getR isActive pay T N)

/-- On a path three payoffs are evaluated at the same price, or all three are replaced by 0. -/
def Together {α : Type} (pp : (ℝ → Res ℝ) → α → Res ℝ) : Prop :=
  ∀ (f₁ f₂ f₃ : ℝ → Res ℝ) (a : α) (v₁ v₂ v₃ : ℝ), pp f₁ a = .ok v₁ → pp f₂ a = .ok v₂ → pp f₃ a = .ok v₃ →
    (∃ S, f₁ S = .ok v₁ ∧ f₂ S = .ok v₂ ∧ f₃ S = .ok v₃) ∨ (v₁ = 0 ∧ v₂ = 0 ∧ v₃ = 0)

theorem together_asian (k : MC.AsianKind) (n : Nat) : Together (fun f => MC.asianPath (F := ℝ) k f n) := by
  intro f₁ f₂ f₃ a v₁ v₂ v₃ h1 h2 h3
  simp only [MC.asianPath] at h1 h2 h3
  obtain ⟨x, hx, h1⟩ := Res.bind_eq_ok.mp h1
  obtain ⟨x', hx', h2⟩ := Res.bind_eq_ok.mp h2
  rw [hx] at hx'; cases hx'
  obtain ⟨x', hx', h3⟩ := Res.bind_eq_ok.mp h3
  rw [hx] at hx'; cases hx'
  exact .inl ⟨_, h1, h2, h3⟩

theorem together_barrier (k : MC.KnockKind) (act : ℝ → Bool) (n : Nat) :
    Together (fun f => MC.barrierPath (F := ℝ) k act f n) := by
  intro f₁ f₂ f₃ a v₁ v₂ v₃ h1 h2 h3
  simp only [MC.barrierPath] at h1 h2 h3
  obtain ⟨x, hx, h1⟩ := Res.bind_eq_ok.mp h1
  obtain ⟨l, hl, h1⟩ := Res.bind_eq_ok.mp h1
  obtain ⟨x', hx', h2⟩ := Res.bind_eq_ok.mp h2
  rw [hx] at hx'; cases hx'
  obtain ⟨l', hl', h2⟩ := Res.bind_eq_ok.mp h2
  rw [hl] at hl'; cases hl'
  obtain ⟨x', hx', h3⟩ := Res.bind_eq_ok.mp h3
  rw [hx] at hx'; cases hx'
  obtain ⟨l', hl', h3⟩ := Res.bind_eq_ok.mp h3
  rw [hl] at hl'; cases hl'
  cases k <;> cases x <;> simp only [MC.KnockKind.payoff, if_true, if_false, Bool.false_eq_true] at h1 h2 h3
  · cases h1; cases h2; cases h3; exact .inr (by simp)
  · exact .inl ⟨_, h1, h2, h3⟩
  · exact .inl ⟨_, h1, h2, h3⟩
  · cases h1; cases h2; cases h3; exact .inr (by simp)

theorem foldl_linear {α : Type} {p₁ p₂ p₃ : α → Res ℝ} {c₁ c₂ c₃ c : ℝ}
    (h : ∀ a v₁ v₂ v₃, p₁ a = .ok v₁ → p₂ a = .ok v₂ → p₃ a = .ok v₃ → c₁ * v₁ + c₂ * v₂ + c₃ * v₃ ≤ c) :
    ∀ (as : List α) (u₁ u₂ u₃ : List ℝ) (a₁ a₂ a₃ : ℝ), Pays p₁ as u₁ → Pays p₂ as u₂ → Pays p₃ as u₃ →
      c₁ * u₁.foldl (· + ·) a₁ + c₂ * u₂.foldl (· + ·) a₂ + c₃ * u₃.foldl (· + ·) a₃ ≤
        c₁ * a₁ + c₂ * a₂ + c₃ * a₃ + c * as.length := by
  intro as
  induction as with
  | nil => intro u₁ u₂ u₃ a₁ a₂ a₃ h1 h2 h3; cases h1; cases h2; cases h3; simp
  | cons a as ih =>
    intro u₁ u₂ u₃ a₁ a₂ a₃ h1 h2 h3
    cases h1 with
    | cons e1 h1 =>
      cases h2 with
      | cons e2 h2 =>
        cases h3 with
        | cons e3 h3 =>
          refine (ih _ _ _ _ _ _ h1 h2 h3).trans ?_
          have := h _ _ _ _ e1 e2 e3
          push_cast [List.length_cons]
          linarith

theorem long_linear {α : Type} {sim : Eff σ α} {getR : Eff σ ℝ} {p₁ p₂ p₃ : α → Res ℝ} {c₁ c₂ c₃ c : ℝ}
    (h : ∀ a v₁ v₂ v₃, p₁ a = .ok v₁ → p₂ a = .ok v₂ → p₃ a = .ok v₃ → c₁ * v₁ + c₂ * v₂ + c₃ * v₃ ≤ c)
    {T r x₁ x₂ x₃ : ℝ} {N : Nat} (hN : 0 < N) {s s₀ s₁ s₂ s₃ : σ} (hr : getR s = (.ok r, s₀))
    (h1 : MC.longPricer sim getR p₁ T N s = (.ok x₁, s₁)) (h2 : MC.longPricer sim getR p₂ T N s = (.ok x₂, s₂))
    (h3 : MC.longPricer sim getR p₃ T N s = (.ok x₃, s₃)) :
    c₁ * x₁ + c₂ * x₂ + c₃ * x₃ ≤ c * Real.exp (-r * T) := by
  obtain ⟨r₁, t₁, as, u₁, e1⟩ := MC.longPricer_inv h1
  obtain ⟨r₂, t₂, bs, u₂, e2⟩ := MC.longPricer_inv h2
  obtain ⟨r₃, t₃, cs, u₃, e3⟩ := MC.longPricer_inv h3
  obtain ⟨rfl, rfl, rfl, rfl⟩ := e1.same e2
  obtain ⟨rfl, rfl, rfl, rfl⟩ := e1.same e3
  have := hr.symm.trans e1.rate
  cases this
  rw [e1.price, e2.price, e3.price]
  have key := foldl_linear h as u₁ u₂ u₃ (lit 0) (lit 0) (lit 0) e1.pays e2.pays e3.pays
  rw [e1.len] at key
  have hN' : (0 : ℝ) < N := by exact_mod_cast hN
  have hE : Fl.exp (-r * T) = Real.exp (-r * T) := rfl
  have hl : (lit (N : ℚ) : ℝ) = N := by simp
  rw [hE, hl]
  have hz : (lit 0 : ℝ) = 0 := by simp
  have hpos := Real.exp_pos (-r * T)
  have := mul_le_mul_of_nonneg_right (div_le_div_of_nonneg_right key hN'.le) hpos.le
  calc _ = (c₁ * u₁.foldl (· + ·) (lit 0) + c₂ * u₂.foldl (· + ·) (lit 0) + c₃ * u₃.foldl (· + ·) (lit 0)) / N *
        Real.exp (-r * T) := by ring
    _ ≤ _ := this
    _ = c * Real.exp (-r * T) := by
      rw [hz]; field_simp; ring

/-- An inequality that the payoffs of three contracts satisfy for every price of the underlying is inherited by the prices. -/
theorem oneOf_linear {src : PathSource σ ℝ} {getR : Eff σ ℝ} {T : ℝ} {N : Nat} {run : (ℝ → Res ℝ) → Eff σ ℝ}
    (hrun : OneOf src getR T N run) {f₁ f₂ f₃ : ℝ → Res ℝ} {c₁ c₂ c₃ c : ℝ} (hc : 0 ≤ c)
    (h : ∀ S v₁ v₂ v₃, f₁ S = .ok v₁ → f₂ S = .ok v₂ → f₃ S = .ok v₃ → c₁ * v₁ + c₂ * v₂ + c₃ * v₃ ≤ c)
    {r x₁ x₂ x₃ : ℝ} (hN : 0 < N) {s s₀ s₁ s₂ s₃ : σ} (hr : getR s = (.ok r, s₀))
    (h1 : run f₁ s = (.ok x₁, s₁)) (h2 : run f₂ s = (.ok x₂, s₂)) (h3 : run f₃ s = (.ok x₃, s₃)) :
    c₁ * x₁ + c₂ * x₂ + c₃ * x₃ ≤ c * Real.exp (-r * T) := by
  have key : ∀ {α : Type} {pp : (ℝ → Res ℝ) → α → Res ℝ}, Together pp → ∀ a v₁ v₂ v₃, pp f₁ a = .ok v₁ →
      pp f₂ a = .ok v₂ → pp f₃ a = .ok v₃ → c₁ * v₁ + c₂ * v₂ + c₃ * v₃ ≤ c := by
    intro α pp hp a v₁ v₂ v₃ e1 e2 e3
    rcases hp f₁ f₂ f₃ a v₁ v₂ v₃ e1 e2 e3 with ⟨S, g1, g2, g3⟩ | ⟨rfl, rfl, rfl⟩
    · exact h S _ _ _ g1 g2 g3
    · simpa using hc
  rcases hrun with rfl | ⟨k, rfl⟩ | ⟨k, act, rfl⟩
  · simp only [MC.singlePath_eq] at h1 h2 h3
    have hM := MC.intPricer_le h1
    rw [MC.intPricer_eq_long hM] at h1 h2 h3
    exact long_linear h hN hr h1 h2 h3
  · simp only [MC.asian_eq] at h1 h2 h3
    exact long_linear (key (together_asian k src.steps)) hN hr h1 h2 h3
  · simp only [MC.barrier_eq] at h1 h2 h3
    have hM := MC.intPricer_le h1
    rw [MC.intPricer_eq_long hM] at h1 h2 h3
    exact long_linear (key (together_barrier k act src.steps)) hN hr h1 h2 h3

theorem vanilla_call_ok {K S v : ℝ} (h : (Payoff.vanilla .call K).eval1 S = .ok v) : v = max (S - K) 0 := by
  simp only [Payoff.eval1, if_true] at h
  cases h
  simp

theorem vanilla_put_ok {K S v : ℝ} (h : (Payoff.vanilla .put K).eval1 S = .ok v) : v = max (K - S) 0 := by
  simp only [Payoff.eval1] at h
  rw [if_neg (by decide)] at h
  cases h
  simp

/-- **C71.** The cost of a call spread: between 0 and the discounted difference of the strikes, for the single path, Asian
and barrier pricers and whatever the paths are. -/
theorem C71_callSpread {src : PathSource σ ℝ} {getR : Eff σ ℝ} {T : ℝ} {N : Nat} {run : (ℝ → Res ℝ) → Eff σ ℝ}
    (hrun : OneOf src getR T N run) {K₁ K₂ r x₁ x₂ : ℝ} (hK : K₁ ≤ K₂) (hN : 0 < N) {s s₀ s₁ s₂ : σ}
    (hr : getR s = (.ok r, s₀)) (h1 : run (Payoff.vanilla .call K₁).eval1 s = (.ok x₁, s₁))
    (h2 : run (Payoff.vanilla .call K₂).eval1 s = (.ok x₂, s₂)) :
    0 ≤ x₁ - x₂ ∧ x₁ - x₂ ≤ (K₂ - K₁) * Real.exp (-r * T) := by
  constructor
  · have := oneOf_linear hrun (c₁ := -1) (c₂ := 1) (c₃ := 0) (c := 0) le_rfl (fun S v₁ v₂ v₃ e1 e2 _ => by
      rw [vanilla_call_ok e1, vanilla_call_ok e2]
      have := max_le_max (sub_le_sub_left hK S) (le_refl (0 : ℝ))
      linarith) hN hr h1 h2 h2
    linarith
  · have := oneOf_linear hrun (c₁ := 1) (c₂ := -1) (c₃ := 0) (c := K₂ - K₁) (by linarith) (fun S v₁ v₂ v₃ e1 e2 _ => by
      rw [vanilla_call_ok e1, vanilla_call_ok e2]
      have : max (S - K₁) 0 ≤ max (S - K₂) 0 + (K₂ - K₁) :=
        max_le (by linarith [le_max_left (S - K₂) 0]) (by linarith [le_max_right (S - K₂) 0])
      linarith) hN hr h1 h2 h2
    linarith

/-- Asian calls with strikes 1 and 2 on one path of two prices. -/
example : ∃ x₁ x₂ : ℝ,
    MC.asian .arithmetic (replay 2) (Eff.lift (.ok (1 / 10))) (Payoff.vanilla .call 1).eval1 3 1 [[2, 4]] = (.ok x₁, []) ∧
    MC.asian .arithmetic (replay 2) (Eff.lift (.ok (1 / 10))) (Payoff.vanilla .call 2).eval1 3 1 [[2, 4]] = (.ok x₂, []) ∧
    0 ≤ x₁ - x₂ ∧ x₁ - x₂ ≤ (2 - 1) * Real.exp (-(1 / 10) * 3) :=
  ⟨_, _, rfl, rfl, C71_callSpread (src := replay 2) (getR := Eff.lift (.ok (1 / 10))) (T := 3) (N := 1)
    (.inr (.inl ⟨.arithmetic, rfl⟩)) (K₁ := 1) (K₂ := 2) (by norm_num) one_pos (s := [[2, 4]]) rfl rfl rfl⟩

/-- **C71.** The same for puts. -/
theorem C71_putSpread {src : PathSource σ ℝ} {getR : Eff σ ℝ} {T : ℝ} {N : Nat} {run : (ℝ → Res ℝ) → Eff σ ℝ}
    (hrun : OneOf src getR T N run) {K₁ K₂ r x₁ x₂ : ℝ} (hK : K₁ ≤ K₂) (hN : 0 < N) {s s₀ s₁ s₂ : σ}
    (hr : getR s = (.ok r, s₀)) (h1 : run (Payoff.vanilla .put K₁).eval1 s = (.ok x₁, s₁))
    (h2 : run (Payoff.vanilla .put K₂).eval1 s = (.ok x₂, s₂)) :
    0 ≤ x₂ - x₁ ∧ x₂ - x₁ ≤ (K₂ - K₁) * Real.exp (-r * T) := by
  constructor
  · have := oneOf_linear hrun (c₁ := 1) (c₂ := -1) (c₃ := 0) (c := 0) le_rfl (fun S v₁ v₂ v₃ e1 e2 _ => by
      rw [vanilla_put_ok e1, vanilla_put_ok e2]
      have := max_le_max (sub_le_sub_right hK S) (le_refl (0 : ℝ))
      linarith) hN hr h1 h2 h2
    linarith
  · have := oneOf_linear hrun (c₁ := -1) (c₂ := 1) (c₃ := 0) (c := K₂ - K₁) (by linarith) (fun S v₁ v₂ v₃ e1 e2 _ => by
      rw [vanilla_put_ok e1, vanilla_put_ok e2]
      have : max (K₂ - S) 0 ≤ max (K₁ - S) 0 + (K₂ - K₁) :=
        max_le (by linarith [le_max_left (K₁ - S) 0]) (by linarith [le_max_right (K₁ - S) 0])
      linarith) hN hr h1 h2 h2
    linarith

/-- Knock-in puts with strikes 5 and 6 and a barrier that is always touched. -/
example : ∃ x₁ x₂ : ℝ,
    MC.barrier .knockIn (replay 2) (Eff.lift (.ok (1 / 10))) (fun _ => true) (Payoff.vanilla .put 5).eval1 3 1 [[2, 4]] =
      (.ok x₁, []) ∧
    MC.barrier .knockIn (replay 2) (Eff.lift (.ok (1 / 10))) (fun _ => true) (Payoff.vanilla .put 6).eval1 3 1 [[2, 4]] =
      (.ok x₂, []) ∧ 0 ≤ x₂ - x₁ ∧ x₂ - x₁ ≤ (6 - 5) * Real.exp (-(1 / 10) * 3) :=
  ⟨_, _, rfl, rfl, C71_putSpread (src := replay 2) (getR := Eff.lift (.ok (1 / 10))) (T := 3) (N := 1)
    (.inr (.inr ⟨.knockIn, fun _ => true, rfl⟩)) (K₁ := 5) (K₂ := 6) (by norm_num) one_pos (s := [[2, 4]]) rfl rfl rfl⟩

theorem max_convex {a b u v : ℝ} (hu : 0 ≤ u) (hv : 0 ≤ v) : max (u * a + v * b) 0 ≤ u * max a 0 + v * max b 0 := by
  have h1 := mul_le_mul_of_nonneg_left (le_max_left a 0) hu
  have h2 := mul_le_mul_of_nonneg_left (le_max_left b 0) hv
  have h3 := mul_nonneg hu (le_max_right a 0)
  have h4 := mul_nonneg hv (le_max_right b 0)
  exact max_le (by linarith) (by linarith)

/-- **C71.** The price is convex in the strike: a butterfly spread never has a negative price. -/
theorem C71_convex {src : PathSource σ ℝ} {getR : Eff σ ℝ} {T : ℝ} {N : Nat} {run : (ℝ → Res ℝ) → Eff σ ℝ}
    (hrun : OneOf src getR T N run) {ty : PayoffType} (hty : ty = .call ∨ ty = .put) {K₁ K₂ u v r x₁ x₂ x : ℝ}
    (hu : 0 ≤ u) (hv : 0 ≤ v) (huv : u + v = 1) (hN : 0 < N) {s s₀ s₁ s₂ s₃ : σ} (hr : getR s = (.ok r, s₀))
    (h1 : run (Payoff.vanilla ty K₁).eval1 s = (.ok x₁, s₁)) (h2 : run (Payoff.vanilla ty K₂).eval1 s = (.ok x₂, s₂))
    (h3 : run (Payoff.vanilla ty (u * K₁ + v * K₂)).eval1 s = (.ok x, s₃)) : x ≤ u * x₁ + v * x₂ := by
  have := oneOf_linear hrun (c₁ := -u) (c₂ := -v) (c₃ := 1) (c := 0) le_rfl (fun S v₁ v₂ v₃ e1 e2 e3 => by
    rcases hty with rfl | rfl
    · rw [vanilla_call_ok e1, vanilla_call_ok e2, vanilla_call_ok e3]
      have := max_convex (a := S - K₁) (b := S - K₂) hu hv
      have e : u * (S - K₁) + v * (S - K₂) = S - (u * K₁ + v * K₂) := by
        have : u * (S - K₁) + v * (S - K₂) = (u + v) * S - (u * K₁ + v * K₂) := by ring
        rw [this, huv, one_mul]
      rw [e] at this
      linarith
    · rw [vanilla_put_ok e1, vanilla_put_ok e2, vanilla_put_ok e3]
      have := max_convex (a := K₁ - S) (b := K₂ - S) hu hv
      have e : u * (K₁ - S) + v * (K₂ - S) = u * K₁ + v * K₂ - S := by
        have : u * (K₁ - S) + v * (K₂ - S) = u * K₁ + v * K₂ - (u + v) * S := by ring
        rw [this, huv, one_mul]
      rw [e] at this
      linarith) hN hr h1 h2 h3
  linarith

/-- The strike 3/2 between 1 and 2. -/
example : ∃ x₁ x₂ x : ℝ,
    MC.singlePath (replay 1) (Eff.lift (.ok (1 / 10))) (Payoff.vanilla .call 1).eval1 3 1 [[4]] = (.ok x₁, []) ∧
    MC.singlePath (replay 1) (Eff.lift (.ok (1 / 10))) (Payoff.vanilla .call 2).eval1 3 1 [[4]] = (.ok x₂, []) ∧
    MC.singlePath (replay 1) (Eff.lift (.ok (1 / 10))) (Payoff.vanilla .call (1 / 2 * 1 + 1 / 2 * 2)).eval1 3 1 [[4]] =
      (.ok x, []) ∧ x ≤ 1 / 2 * x₁ + 1 / 2 * x₂ :=
  ⟨_, _, _, rfl, rfl, rfl, C71_convex (src := replay 1) (getR := Eff.lift (.ok (1 / 10))) (T := 3) (N := 1) (.inl rfl)
    (.inl rfl) (K₁ := 1) (K₂ := 2) (by norm_num) (by norm_num) (by norm_num) one_pos (s := [[4]]) rfl rfl rfl rfl⟩

end
end Verif
