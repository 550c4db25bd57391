import Verif.Model.Payoff
import Verif.Num.Dbl
import Verif.Spec.MarketSpec
import Mathlib.Tactic.Linarith
import Mathlib.Algebra.Order.Group.MinMax

/-!
# Properties C10-C14: payoffs
-/

namespace Verif.Props
open Payoff Res

/-! ## C10 -/

/-- C10 (reals): vanilla payoffs are the positive parts; put-call parity. -/
theorem C10_positivePart (K S : ℝ) :
    eval1 (vanilla .call K) S = .ok (max (S - K) 0) ∧
    eval1 (vanilla .put K) S = .ok (max (K - S) 0) ∧
    ∀ c p, eval1 (vanilla .call K) S = .ok c → eval1 (vanilla .put K) S = .ok p →
      0 ≤ c ∧ 0 ≤ p ∧ c - p = S - K := by
  have h1 : eval1 (vanilla .call K) S = .ok (max (S - K) 0) := by simp [eval1]
  have h2 : eval1 (vanilla .put K) S = .ok (max (K - S) 0) := by simp [eval1]
  refine ⟨h1, h2, fun c p hc hp => ?_⟩
  rw [h1] at hc; rw [h2] at hp
  cases hc; cases hp
  refine ⟨le_max_right _ _, le_max_right _ _, ?_⟩
  rcases le_total S K with h | h
  · rw [max_eq_right (by linarith), max_eq_left (by linarith)]; ring
  · rw [max_eq_left (by linarith), max_eq_right (by linarith)]; ring

/-- C10 (reals): the call is non-decreasing, the put non-increasing in the spot, and both are
1-Lipschitz. -/
theorem C10_monotoneLipschitz (K S S' c c' p p' : ℝ)
    (hc : eval1 (vanilla .call K) S = .ok c) (hc' : eval1 (vanilla .call K) S' = .ok c')
    (hp : eval1 (vanilla .put K) S = .ok p) (hp' : eval1 (vanilla .put K) S' = .ok p') :
    (S ≤ S' → c ≤ c' ∧ p' ≤ p) ∧ |c - c'| ≤ |S - S'| ∧ |p - p'| ≤ |S - S'| := by
  rw [(C10_positivePart K S).1] at hc
  rw [(C10_positivePart K S').1] at hc'
  rw [(C10_positivePart K S).2.1] at hp
  rw [(C10_positivePart K S').2.1] at hp'
  cases hc; cases hc'; cases hp; cases hp'
  refine ⟨fun h => ⟨max_le_max (by linarith) le_rfl, max_le_max (by linarith) le_rfl⟩, ?_, ?_⟩
  · refine (abs_max_sub_max_le_abs _ _ _).trans (le_of_eq ?_)
    congr 1; ring
  · refine (abs_max_sub_max_le_abs _ _ _).trans (le_of_eq ?_)
    rw [← abs_neg]; congr 1; ring

/-- C10 (doubles, any rounding): a vanilla payoff is NaN exactly when the difference is NaN, and
otherwise never negative. -/
theorem C10_rounded_nonneg {R : Rounding} (ty : PayoffType) (K S v : Dbl R)
    (h : eval1 (vanilla ty K) S = .ok v) :
    (v = .nan ↔ (if ty = .call then S - K else K - S) = .nan) ∧ (v ≠ .nan → v.Nonneg) := by
  have key : ∀ d : Dbl R, (Fl.max d (lit 0) = .nan ↔ d = .nan) ∧
      (Fl.max d (lit 0) ≠ .nan → (Fl.max d (lit 0)).Nonneg) := by
    intro d
    cases d with
    | nan => simp
    | num e => simp
  unfold eval1 at h
  by_cases hc : ty = .call
  · simp only [hc, if_true, ok.injEq] at h ⊢; rw [← h]; exact key _
  · simp only [hc, if_false, ok.injEq] at h ⊢; rw [← h]; exact key _

theorem Dbl.sub_num_coe {R : Rounding} (s : EReal) (k : ℝ) :
    (Dbl.num s - Dbl.num (k : EReal) : Dbl R) = .num (R.rndE (s - (k : EReal))) := by
  rw [Dbl.sub_def, Dbl.neg_num, Dbl.add_num, if_neg, sub_eq_add_neg]
  rw [← EReal.coe_neg]
  rintro (⟨-, h⟩ | ⟨-, h⟩)
  · exact EReal.coe_ne_bot _ h
  · exact EReal.coe_ne_top _ h

theorem Dbl.coe_sub_num {R : Rounding} (s : EReal) (k : ℝ) :
    (Dbl.num (k : EReal) - Dbl.num s : Dbl R) = .num (R.rndE ((k : EReal) - s)) := by
  rw [Dbl.sub_def, Dbl.neg_num, Dbl.add_num, if_neg, sub_eq_add_neg]
  rintro (⟨h, -⟩ | ⟨h, -⟩)
  · exact EReal.coe_ne_top _ h
  · exact EReal.coe_ne_bot _ h

/-- C10 (doubles, any rounding): for a finite strike the call payoff is non-decreasing and the put
payoff non-increasing in the spot (infinite spots included). -/
theorem C10_rounded_monotone {R : Rounding} (k : ℝ) (s s' : EReal) (hs : s ≤ s')
    (c c' p p' : Dbl R)
    (hc : eval1 (vanilla .call (.num k)) (.num s) = .ok c)
    (hc' : eval1 (vanilla .call (.num k)) (.num s') = .ok c')
    (hp : eval1 (vanilla .put (.num k)) (.num s) = .ok p)
    (hp' : eval1 (vanilla .put (.num k)) (.num s') = .ok p') :
    Fl.le c c' = true ∧ Fl.le p' p = true := by
  simp only [eval1, if_true, reduceCtorEq, if_false, ok.injEq, Dbl.sub_num_coe, Dbl.coe_sub_num,
    Dbl.lit_zero, Dbl.max_num] at hc hc' hp hp'
  subst hc hc' hp hp'
  simp only [Dbl.le_num]
  exact ⟨max_le_max (R.rndE_mono (EReal.sub_le_sub hs le_rfl)) le_rfl,
    max_le_max (R.rndE_mono (EReal.sub_le_sub le_rfl hs)) le_rfl⟩

example : ∃ c p : ℝ, eval1 (vanilla .call 100) (120 : ℝ) = .ok c ∧
    eval1 (vanilla .put 100) (120 : ℝ) = .ok p ∧ c = 20 ∧ p = 0 :=
  ⟨_, _, (C10_positivePart _ _).1, (C10_positivePart _ _).2.1, by norm_num, by norm_num⟩
example (R : Rounding) : ∃ c : Dbl R,
    eval1 (vanilla .call (.num ((1 : ℝ) : EReal))) (.num ⊤) = .ok c ∧ c = .num ⊤ := by
  refine ⟨_, by simp only [eval1, if_true, Dbl.sub_num_coe, Dbl.lit_zero, Dbl.max_num]; rfl, ?_⟩
  rw [EReal.top_sub_coe]; simp

/-! ## C11 -/

/-- C11: a digital call pays 1 exactly above the strike, a digital put exactly below it, and 0
otherwise (at the strike, and when a value is NaN). -/
theorem C11_digital {R : Rounding} (K S : Dbl R) :
    ((∃ k s, K = .num k ∧ S = .num s ∧ k < s) → eval1 (digital .call K) S = .ok (.num 1)) ∧
    ((¬ ∃ k s, K = .num k ∧ S = .num s ∧ k < s) → eval1 (digital .call K) S = .ok (.num 0)) ∧
    ((∃ k s, K = .num k ∧ S = .num s ∧ s < k) → eval1 (digital .put K) S = .ok (.num 1)) ∧
    ((¬ ∃ k s, K = .num k ∧ S = .num s ∧ s < k) → eval1 (digital .put K) S = .ok (.num 0)) := by
  cases K with
  | nan => simp [eval1]
  | num k =>
    cases S with
    | nan => simp [eval1]
    | num s =>
      simp only [eval1, Dbl.num.injEq, if_true, reduceCtorEq, if_false, Dbl.lit_one, Dbl.lit_zero,
        Dbl.gt_num, ok.injEq]
      refine ⟨?_, ?_, ?_, ?_⟩
      · rintro ⟨_, _, rfl, rfl, h⟩; rw [if_pos h]
      · intro h; rw [if_neg (fun hx => h ⟨_, _, rfl, rfl, hx⟩)]
      · rintro ⟨_, _, rfl, rfl, h⟩; rw [if_pos h]
      · intro h; rw [if_neg (fun hx => h ⟨_, _, rfl, rfl, hx⟩)]

/-- C11: a double digital pays 1 exactly on the closed interval `[K_L, K_U]`, else 0. -/
theorem C11_doubleDigital {R : Rounding} (KL KU S : Dbl R) :
    ((∃ a b s, KL = .num a ∧ KU = .num b ∧ S = .num s ∧ a ≤ s ∧ s ≤ b) →
      eval1 (doubleDigital KL KU) S = .ok (.num 1)) ∧
    ((¬ ∃ a b s, KL = .num a ∧ KU = .num b ∧ S = .num s ∧ a ≤ s ∧ s ≤ b) →
      eval1 (doubleDigital KL KU) S = .ok (.num 0)) := by
  cases KL with
  | nan => simp [eval1]
  | num a =>
    cases KU with
    | nan => simp [eval1]
    | num b =>
      cases S with
      | nan => simp [eval1]
      | num s =>
        simp only [eval1, Dbl.num.injEq, Dbl.lit_one, Dbl.lit_zero, ok.injEq, Bool.and_eq_true,
          Dbl.le_num]
        constructor
        · rintro ⟨_, _, _, rfl, rfl, rfl, h⟩; rw [if_pos h]
        · intro h; rw [if_neg (fun hx => h ⟨_, _, _, rfl, rfl, rfl, hx⟩)]

/-- C11: off the strike digital call + digital put = 1; at the strike both are 0. -/
theorem C11_digitalParity {R : Rounding} (k s : EReal) :
    (k ≠ s → ∃ c p : EReal, eval1 (digital .call (.num k : Dbl R)) (.num s) = .ok (.num c) ∧
      eval1 (digital .put (.num k : Dbl R)) (.num s) = .ok (.num p) ∧ c + p = 1) ∧
    (k = s → eval1 (digital .call (.num k : Dbl R)) (.num s) = .ok (.num 0) ∧
      eval1 (digital .put (.num k : Dbl R)) (.num s) = .ok (.num 0)) := by
  obtain ⟨h1, h2, h3, h4⟩ := C11_digital (R := R) (.num k) (.num s)
  simp only [Dbl.num.injEq] at h1 h2 h3 h4
  constructor
  · intro hne
    rcases lt_or_gt_of_ne hne with h | h
    · refine ⟨1, 0, h1 ⟨k, s, rfl, rfl, h⟩, h4 ?_, by simp⟩
      rintro ⟨_, _, rfl, rfl, hx⟩; exact absurd (h.trans hx) (lt_irrefl _)
    · refine ⟨0, 1, h2 ?_, h3 ⟨k, s, rfl, rfl, h⟩, by simp⟩
      rintro ⟨_, _, rfl, rfl, hx⟩; exact absurd (h.trans hx) (lt_irrefl _)
  · rintro rfl
    exact ⟨h2 (by rintro ⟨_, _, rfl, h, hx⟩; exact absurd (h ▸ hx) (lt_irrefl _)),
      h4 (by rintro ⟨_, _, rfl, h, hx⟩; exact absurd (h ▸ hx) (lt_irrefl _))⟩

example (R : Rounding) : eval1 (digital .call (.num 0 : Dbl R)) (.num 1) = .ok (.num 1) :=
  (C11_digital _ _).1 ⟨0, 1, rfl, rfl, by simp⟩
example (R : Rounding) : eval1 (doubleDigital (.num 0 : Dbl R) (.num 1)) (.num 1) = .ok (.num 1) :=
  (C11_doubleDigital _ _ _).1 ⟨0, 1, 1, rfl, rfl, rfl, by simp⟩

/-! ## C12 -/

/-- The double is a number below zero. -/
def Negative {R : Rounding} (x : Dbl R) : Prop := ∃ e, x = .num e ∧ e < 0

theorem lt_zero_iff {R : Rounding} (x : Dbl R) : Fl.lt x (lit 0) = true ↔ Negative x := by
  unfold Negative
  cases x with
  | nan => simp
  | num e => simp

theorem notCallPut_iff (ty : PayoffType) : notCallPut ty = true ↔ ty ≠ .call ∧ ty ≠ .put := by
  simp [notCallPut]

/-- C12: the vanilla and digital constructors throw exactly on a negative strike or a type other
than call and put, and otherwise store exactly the arguments (NaN is accepted as a strike). -/
theorem C12_singleStrike {R : Rounding} (ty : PayoffType) (K : Dbl R) :
    (Negative K ∨ (ty ≠ .call ∧ ty ≠ .put) →
      Throws .invalidArgument (mkVanilla ty K) ∧ Throws .invalidArgument (mkDigital ty K)) ∧
    (¬ Negative K ∧ (ty = .call ∨ ty = .put) →
      mkVanilla ty K = .ok (vanilla ty K) ∧ mkDigital ty K = .ok (digital ty K)) := by
  have h1 := lt_zero_iff K
  have h2 := notCallPut_iff ty
  constructor
  · intro h
    by_cases hk : Negative K
    · have := h1.mpr hk
      simp [-Dbl.lit_zero, mkVanilla, mkDigital, checkStrike, this]
    · have h3 := h2.mpr (h.resolve_left hk)
      have h4 : Fl.lt K (lit 0) = false := by rw [← Bool.not_eq_true, h1]; exact hk
      simp [-Dbl.lit_zero, mkVanilla, mkDigital, checkStrike, h3, h4]
  · rintro ⟨hk, ht⟩
    have h4 : Fl.lt K (lit 0) = false := by rw [← Bool.not_eq_true, h1]; exact hk
    have h3 : notCallPut ty = false := by
      rw [← Bool.not_eq_true, h2]; rintro ⟨a, b⟩; exact ht.elim a b
    simp [-Dbl.lit_zero, mkVanilla, mkDigital, checkStrike, h3, h4]

/-- C12: the double digital constructor throws exactly when a strike is negative. -/
theorem C12_doubleStrike {R : Rounding} (KL KU : Dbl R) :
    (Negative KL ∨ Negative KU → Throws .invalidArgument (mkDoubleDigital KL KU)) ∧
    (¬ Negative KL ∧ ¬ Negative KU → mkDoubleDigital KL KU = .ok (doubleDigital KL KU)) := by
  rw [← lt_zero_iff, ← lt_zero_iff]
  unfold mkDoubleDigital
  cases Fl.lt KL (lit 0) <;> cases Fl.lt KU (lit 0) <;> simp

/-- C12: the floating-strike lookback constructor throws exactly for other types. -/
theorem C12_lookback {R : Rounding} (ty : PayoffType) :
    (ty ≠ .call ∧ ty ≠ .put →
      Throws .invalidArgument (mkFloatingLookback ty : Res (Payoff (Dbl R)))) ∧
    (ty = .call ∨ ty = .put →
      (mkFloatingLookback ty : Res (Payoff (Dbl R))) = .ok (floatingLookback ty)) := by
  have h2 := notCallPut_iff ty
  unfold mkFloatingLookback
  constructor
  · intro h; simp [h2.mpr h]
  · intro ht
    have h3 : notCallPut ty = false := by
      rw [← Bool.not_eq_true, h2]; rintro ⟨a, b⟩; exact ht.elim a b
    simp [h3]

example (R : Rounding) : ¬ Negative (.num 0 : Dbl R) ∧ ¬ Negative (.nan : Dbl R) ∧
    Negative (.num ⊥ : Dbl R) := by
  refine ⟨?_, ?_, ⟨⊥, rfl, by simp⟩⟩
  · rintro ⟨e, h, he⟩; cases h; exact lt_irrefl _ he
  · rintro ⟨e, h, -⟩; cases h

/-! ## C13 -/

/-- No strike of the payoff is NaN. -/
def NoNaNStrike {R : Rounding} : Payoff (Dbl R) → Prop
  | vanilla _ K => K ≠ .nan
  | digital _ K => K ≠ .nan
  | doubleDigital KL KU => KL ≠ .nan ∧ KU ≠ .nan
  | floatingLookback _ => True

/-- The class of a payoff, as a name. -/
def className {F : Type} : Payoff F → String
  | vanilla .. => "PayoffVanilla"
  | digital .. => "PayoffDigital"
  | doubleDigital .. => "PayoffDoubleDigital"
  | floatingLookback .. => "PayoffFloatingStrikeLookback"

theorem eqb_iff {R : Rounding} (x y : Dbl R) : Fl.eqb x y = true ↔ x = y ∧ x ≠ .nan := by
  cases x with
  | nan => simp
  | num e =>
    cases y with
    | nan => simp
    | num e' => simp

theorem beq_iff {R : Rounding} (p q : Payoff (Dbl R)) :
    Payoff.beq p q = true ↔ p = q ∧ NoNaNStrike p := by
  cases p <;> cases q <;>
    simp only [Payoff.beq, sameClass, Payoff.compare, if_true, if_false, Bool.false_eq_true,
      Bool.and_eq_true, decide_eq_true_eq, eqb_iff, NoNaNStrike, vanilla.injEq, digital.injEq,
      doubleDigital.injEq, floatingLookback.injEq, reduceCtorEq, false_and]
  · constructor
    · rintro ⟨⟨h1, h2, h3⟩, -⟩; exact ⟨⟨h1, h2⟩, h3⟩
    · rintro ⟨⟨h1, h2⟩, h3⟩; exact ⟨⟨h1, h2, h3⟩, h1.symm, h2.symm, h2 ▸ h3⟩
  · constructor
    · rintro ⟨⟨h1, h2, h3⟩, -⟩; exact ⟨⟨h1, h2⟩, h3⟩
    · rintro ⟨⟨h1, h2⟩, h3⟩; exact ⟨⟨h1, h2, h3⟩, h1.symm, h2.symm, h2 ▸ h3⟩
  · constructor
    · rintro ⟨⟨⟨h1, h2⟩, h3, h4⟩, -⟩; exact ⟨⟨h3, h1⟩, h4, h2⟩
    · rintro ⟨⟨h1, h2⟩, h3, h4⟩
      exact ⟨⟨⟨h2, h4⟩, h1, h3⟩, ⟨h2.symm, h2 ▸ h4⟩, h1.symm, h1 ▸ h3⟩
  · constructor
    · rintro ⟨h, -⟩; exact ⟨h, trivial⟩
    · rintro ⟨h, -⟩; exact ⟨h, h.symm⟩

/-- C13: equality of payoffs is reflexive on payoffs without NaN strikes, symmetric, transitive, and
holds only between payoffs of the same class. -/
theorem C13_equivalence {R : Rounding} (p q r : Payoff (Dbl R)) :
    (Payoff.beq p p = true ↔ NoNaNStrike p) ∧
    (Payoff.beq p q = true → Payoff.beq q p = true) ∧
    (Payoff.beq p q = true → Payoff.beq q r = true → Payoff.beq p r = true) ∧
    (Payoff.beq p q = true → className p = className q ∧ payoffType p = payoffType q) ∧
    (Payoff.bne p q = true ↔ ¬ Payoff.beq p q = true) := by
  simp only [beq_iff, Payoff.bne, Bool.not_eq_true']
  refine ⟨by simp, ?_, ?_, ?_, ?_⟩
  · rintro ⟨rfl, h⟩; exact ⟨rfl, h⟩
  · rintro ⟨rfl, h⟩ ⟨rfl, -⟩; exact ⟨rfl, h⟩
  · rintro ⟨rfl, -⟩; exact ⟨rfl, rfl⟩
  · rw [← beq_iff]; simp

/-- C13: equal payoffs give equal results (or equal exceptions) on every input. -/
theorem C13_equalPayoffsPayTheSame {R : Rounding} (p q : Payoff (Dbl R))
    (h : Payoff.beq p q = true) (S X : Dbl R) :
    eval1 p S = eval1 q S ∧ eval2 p S X = eval2 q S X := by
  rw [beq_iff] at h; rw [h.1]; exact ⟨rfl, rfl⟩

/-- C13: a clone is a payoff of the same class that pays the same everywhere and compares equal to
the original (unless a strike is NaN, when nothing compares equal). -/
theorem C13_clone {R : Rounding} (p : Payoff (Dbl R)) :
    (∀ S X : Dbl R, eval1 (clone p) S = eval1 p S ∧ eval2 (clone p) S X = eval2 p S X) ∧
    className (clone p) = className p ∧ (Payoff.beq (clone p) p = true ↔ NoNaNStrike p) := by
  have : clone p = p := by cases p <;> rfl
  rw [this, beq_iff]; simp

/-- C13, converse for vanilla payoffs: different strikes are told apart. -/
theorem C13_distinguishes {R : Rounding} (ty : PayoffType) (k k' : EReal) :
    Payoff.beq (vanilla ty (.num k : Dbl R)) (vanilla ty (.num k')) = true ↔ k = k' := by
  rw [beq_iff]; simp [NoNaNStrike]

example (R : Rounding) : Payoff.beq (doubleDigital (.num 0 : Dbl R) (.num 1))
    (doubleDigital (.num 0) (.num 1)) = true ∧
    Payoff.beq (vanilla .call (.num 0 : Dbl R)) (digital .call (.num 0)) = false := by
  constructor
  · rw [beq_iff]; simp [NoNaNStrike]
  · rw [← Bool.not_eq_true, beq_iff]; simp

/-! ## C14 -/

/-- C14: the one-argument call throws `logic_error` exactly on floating-strike lookback payoffs, the
two-argument call exactly on all others; otherwise they return a value. -/
theorem C14_arity {F : Type} [Fl F] [Sub F] (p : Payoff F) (S X : F) :
    ((∃ ty, p = floatingLookback ty) →
      Throws .logicError (eval1 p S) ∧ IsOk (eval2 p S X)) ∧
    ((¬ ∃ ty, p = floatingLookback ty) →
      IsOk (eval1 p S) ∧ Throws .logicError (eval2 p S X)) := by
  constructor
  · rintro ⟨ty, rfl⟩
    constructor
    · simp [eval1]
    · simp only [eval2]; split <;> simp
  · intro h
    cases p with
    | vanilla ty K => simp only [eval1, eval2]; constructor <;> [split; skip] <;> simp
    | digital ty K => simp only [eval1, eval2]; constructor <;> [split; skip] <;> simp
    | doubleDigital a b => simp [eval1, eval2]
    | floatingLookback ty => exact absurd ⟨ty, rfl⟩ h

example : ¬ ∃ ty, (vanilla .call (1 : ℝ)) = floatingLookback ty := by simp

end Verif.Props
