import Mathlib.Data.Real.Basic
import Mathlib.Analysis.Calculus.Deriv.Mul
import Mathlib.Analysis.Calculus.Deriv.Add
import Mathlib.Tactic.Linarith
import Mathlib.Tactic.Ring
import Mathlib.Tactic.NormNum
import Mathlib.Tactic.Positivity

/-!
# Polynomials with rational coefficients, and a checker of their sign on an interval

A polynomial is the list of its coefficients, lowest degree first.  The operations below compute
on lists of rationals; each comes with the lemma that says what it does to the value of the
polynomial at a real point.  `posOn` is a bisection that returns `true` only when the polynomial
is nonnegative on the whole real interval: `posOn_sound`.  It lets the kernel settle a polynomial
inequality that holds for every real number of an interval by computing with rationals.

Nothing here models code of /repo: these are proof tools.
-/

namespace PolyCheck

/-- The value of the polynomial at a real point. -/
def ev : List ℚ → ℝ → ℝ
  | [], _ => 0
  | c :: p, x => (c : ℝ) + x * ev p x

/-- The value at a rational point. -/
def evQ : List ℚ → ℚ → ℚ
  | [], _ => 0
  | c :: p, x => c + x * evQ p x

def add : List ℚ → List ℚ → List ℚ
  | [], q => q
  | p, [] => p
  | c :: p, d :: q => (c + d) :: add p q

def smul (a : ℚ) : List ℚ → List ℚ
  | [] => []
  | c :: p => a * c :: smul a p

def mul : List ℚ → List ℚ → List ℚ
  | [], _ => []
  | c :: p, q => add (smul c q) (0 :: mul p q)

def sub (p q : List ℚ) : List ℚ := add p (smul (-1) q)

/-- The derivative: `(c + x p)' = p + x p'`. -/
def der : List ℚ → List ℚ
  | [] => []
  | _ :: p => add p (0 :: der p)

/-- `p (a + x)`. -/
def shift (a : ℚ) : List ℚ → List ℚ
  | [] => []
  | c :: p => add [c] (add (smul a (shift a p)) (0 :: shift a p))

/-- `p (x * x)`. -/
def square : List ℚ → List ℚ
  | [] => []
  | c :: p => c :: 0 :: square p

/-- `p (w x)`. -/
def scale (w : ℚ) : List ℚ → List ℚ
  | [] => []
  | c :: p => c :: smul w (scale w p)

/-! The bisection runs on integer coefficients and on the interval `[0, 1]`. -/

def evZ : List ℤ → ℝ → ℝ
  | [], _ => 0
  | c :: p, x => (c : ℝ) + x * evZ p x

def addZ : List ℤ → List ℤ → List ℤ
  | [], q => q
  | p, [] => p
  | c :: p, d :: q => (c + d) :: addZ p q

/-- `2 ^ length * p (x / 2)`. -/
def halve : List ℤ → List ℤ
  | [] => []
  | c :: p => 2 ^ (p.length + 1) * c :: halve p

/-- `p (1 + x)`. -/
def next : List ℤ → List ℤ
  | [] => []
  | c :: p => addZ [c] (addZ (next p) (0 :: next p))

/-- A lower bound of the polynomial on `[0, 1]`, at most zero. -/
def low : List ℤ → ℤ
  | [] => 0
  | c :: p => min c 0 + low p

/-- A lower bound of the polynomial on `[0, 1]`. -/
def lower : List ℤ → ℤ
  | [] => 0
  | c :: p => c + low p

/-- `true` only when the polynomial is nonnegative on `[0, 1]`. -/
def posZ : ℕ → List ℤ → Bool
  | 0, p => decide (0 ≤ lower p)
  | n + 1, p => decide (0 ≤ lower p) || (posZ n (halve p) && posZ n (next (halve p)))

/-- A common multiple of the denominators. -/
def common : List ℚ → ℕ
  | [] => 1
  | c :: p => Nat.lcm c.den (common p)

/-- `true` only when the polynomial is nonnegative on `[a, a + w]`. -/
def posOn (n : ℕ) (p : List ℚ) (a w : ℚ) : Bool :=
  let q := scale w (shift a p)
  let r := smul (common q : ℚ) q
  decide (0 < common q) && r.all (fun c => decide (c.den = 1)) && posZ n (r.map Rat.num)

@[simp] theorem ev_nil (x : ℝ) : ev [] x = 0 := rfl

@[simp] theorem ev_cons (c : ℚ) (p : List ℚ) (x : ℝ) : ev (c :: p) x = c + x * ev p x := rfl

theorem ev_rat : ∀ (p : List ℚ) (x : ℚ), ev p (x : ℝ) = ((evQ p x : ℚ) : ℝ)
  | [], x => by simp [evQ]
  | c :: p, x => by simp [evQ, ev_rat p x]

/-- With nonnegative coefficients the value is nonnegative and grows on the nonnegative numbers. -/
theorem ev_mono : ∀ (p : List ℚ), p.all (fun c => decide (0 ≤ c)) = true → ∀ {x y : ℝ}, 0 ≤ x → x ≤ y →
    0 ≤ ev p x ∧ ev p x ≤ ev p y
  | [], _, x, y, _, _ => by simp
  | c :: p, h, x, y, h0, hxy => by
    simp only [List.all_cons, Bool.and_eq_true, decide_eq_true_eq] at h
    obtain ⟨a, b⟩ := ev_mono p h.2 h0 hxy
    have hc : (0 : ℝ) ≤ c := by exact_mod_cast h.1
    rw [ev_cons, ev_cons]
    refine ⟨add_nonneg hc (mul_nonneg h0 a), add_le_add le_rfl (mul_le_mul hxy b a (h0.trans hxy))⟩

theorem ev_add : ∀ (p q : List ℚ) (x : ℝ), ev (add p q) x = ev p x + ev q x
  | [], q, x => by simp [add]
  | c :: p, [], x => by simp [add]
  | c :: p, d :: q, x => by simp [add, ev_add p q x]; ring

theorem ev_smul (a : ℚ) : ∀ (p : List ℚ) (x : ℝ), ev (smul a p) x = a * ev p x
  | [], x => by simp [smul]
  | c :: p, x => by simp [smul, ev_smul a p x]; ring

theorem ev_mul : ∀ (p q : List ℚ) (x : ℝ), ev (mul p q) x = ev p x * ev q x
  | [], q, x => by simp [mul]
  | c :: p, q, x => by simp [mul, ev_add, ev_smul, ev_mul p q x]; ring

theorem ev_sub (p q : List ℚ) (x : ℝ) : ev (sub p q) x = ev p x - ev q x := by
  simp [sub, ev_add, ev_smul]; ring

theorem ev_shift (a : ℚ) : ∀ (p : List ℚ) (x : ℝ), ev (shift a p) x = ev p (a + x)
  | [], x => by simp [shift]
  | c :: p, x => by simp [shift, ev_add, ev_smul, ev_shift a p x]; ring

theorem ev_square : ∀ (p : List ℚ) (x : ℝ), ev (square p) x = ev p (x * x)
  | [], x => by simp [square]
  | c :: p, x => by simp [square, ev_square p x]; ring

theorem hasDerivAt_ev : ∀ (p : List ℚ) (x : ℝ), HasDerivAt (ev p) (ev (der p) x) x
  | [], x => by
    have : ev [] = fun _ : ℝ => (0 : ℝ) := rfl
    rw [this]; simpa [der] using hasDerivAt_const x (0 : ℝ)
  | c :: p, x => by
    have h := ((hasDerivAt_id' x).fun_mul (hasDerivAt_ev p x)).const_add (c : ℝ)
    have e : ev (c :: p) = fun y : ℝ => (c : ℝ) + y * ev p y := rfl
    rw [e]
    refine h.congr_deriv ?_
    simp [der, ev_add]

theorem ev_scale (w : ℚ) : ∀ (p : List ℚ) (x : ℝ), ev (scale w p) x = ev p (w * x)
  | [], x => by simp [scale]
  | c :: p, x => by simp [scale, ev_smul, ev_scale w p x]; ring

theorem evZ_add : ∀ (p q : List ℤ) (x : ℝ), evZ (addZ p q) x = evZ p x + evZ q x
  | [], q, x => by simp [addZ, evZ]
  | c :: p, [], x => by simp [addZ, evZ]
  | c :: p, d :: q, x => by simp [addZ, evZ, evZ_add p q x]; ring

theorem evZ_halve : ∀ (p : List ℤ) (x : ℝ), evZ (halve p) x = 2 ^ p.length * evZ p (x / 2)
  | [], x => by simp [halve, evZ]
  | c :: p, x => by simp [halve, evZ, evZ_halve p x, pow_succ]; ring

theorem evZ_next : ∀ (p : List ℤ) (x : ℝ), evZ (next p) x = evZ p (1 + x)
  | [], x => by simp [next, evZ]
  | c :: p, x => by simp [next, evZ, evZ_add, evZ_next p x]; ring

theorem low_nonpos : ∀ p : List ℤ, low p ≤ 0
  | [] => le_refl _
  | c :: p => by
    have h := low_nonpos p
    have hm : min c 0 ≤ 0 := min_le_right _ _
    simp only [low]; linarith

theorem low_le : ∀ (p : List ℤ) {x : ℝ}, 0 ≤ x → x ≤ 1 → ((low p : ℤ) : ℝ) ≤ evZ p x
  | [], x, _, _ => by simp [low, evZ]
  | c :: p, x, h0, h1 => by
    have ih := low_le p h0 h1
    have hn : ((low p : ℤ) : ℝ) ≤ 0 := by exact_mod_cast low_nonpos p
    have hm : ((min c 0 : ℤ) : ℝ) ≤ c := by exact_mod_cast min_le_left _ _
    have a1 : x * (low p : ℝ) ≤ x * evZ p x := mul_le_mul_of_nonneg_left ih h0
    have a2 : (low p : ℝ) ≤ x * (low p : ℝ) := by nlinarith
    rw [low, evZ, Int.cast_add]
    linarith

theorem lower_le (p : List ℤ) {x : ℝ} (h0 : 0 ≤ x) (h1 : x ≤ 1) : ((lower p : ℤ) : ℝ) ≤ evZ p x := by
  cases p with
  | nil => simp [lower, evZ]
  | cons c p =>
    have ih := low_le p h0 h1
    have hn : ((low p : ℤ) : ℝ) ≤ 0 := by exact_mod_cast low_nonpos p
    have a1 : x * (low p : ℝ) ≤ x * evZ p x := mul_le_mul_of_nonneg_left ih h0
    have a2 : (low p : ℝ) ≤ x * (low p : ℝ) := by nlinarith
    rw [lower, evZ, Int.cast_add]
    linarith

theorem lower_nonneg {p : List ℤ} (h : 0 ≤ lower p) {x : ℝ} (h0 : 0 ≤ x) (h1 : x ≤ 1) : 0 ≤ evZ p x :=
  le_trans (by exact_mod_cast h) (lower_le p h0 h1)

theorem posZ_sound : ∀ (n : ℕ) (p : List ℤ), posZ n p = true → ∀ x : ℝ, 0 ≤ x → x ≤ 1 → 0 ≤ evZ p x
  | 0, p, h, x, h0, h1 => by
    simp only [posZ, decide_eq_true_eq] at h
    exact lower_nonneg h h0 h1
  | n + 1, p, h, x, h0, h1 => by
    simp only [posZ, Bool.or_eq_true, Bool.and_eq_true, decide_eq_true_eq] at h
    rcases h with h | ⟨hl, hr⟩
    · exact lower_nonneg h h0 h1
    · have h2 : (0 : ℝ) < 2 ^ p.length := by positivity
      rcases le_total x (1 / 2) with hx | hx
      · have := posZ_sound n _ hl (2 * x) (by linarith) (by linarith)
        rw [evZ_halve, mul_div_cancel_left₀ _ (two_ne_zero)] at this
        exact nonneg_of_mul_nonneg_right this h2
      · have := posZ_sound n _ hr (2 * x - 1) (by linarith) (by linarith)
        rw [evZ_next, evZ_halve, add_sub_cancel, mul_div_cancel_left₀ _ (two_ne_zero)] at this
        exact nonneg_of_mul_nonneg_right this h2

theorem evZ_num : ∀ (p : List ℚ), p.all (fun c => decide (c.den = 1)) = true → ∀ x : ℝ,
    evZ (p.map Rat.num) x = ev p x
  | [], _, x => rfl
  | c :: p, h, x => by
    simp only [List.all_cons, Bool.and_eq_true, decide_eq_true_eq] at h
    have hc : ((c.num : ℤ) : ℝ) = (c : ℝ) := by
      have : ((c.num : ℤ) : ℚ) = c := Rat.den_eq_one_iff c |>.1 h.1
      exact_mod_cast congrArg (fun q : ℚ => (q : ℝ)) this
    rw [List.map_cons, evZ, ev_cons, evZ_num p h.2 x, hc]

theorem posOn_sound (n : ℕ) (p : List ℚ) (a w : ℚ) (hw : 0 < w) (h : posOn n p a w = true)
    (x : ℝ) (h0 : (a : ℝ) ≤ x) (h1 : x ≤ a + w) : 0 ≤ ev p x := by
  have hw' : (0 : ℝ) < w := by exact_mod_cast hw
  simp only [posOn, Bool.and_eq_true, decide_eq_true_eq] at h
  obtain ⟨⟨hc, hd⟩, hp⟩ := h
  have := posZ_sound n _ hp ((x - a) / w) (div_nonneg (by linarith) hw'.le)
    ((div_le_one hw').2 (by linarith))
  rw [evZ_num _ hd, ev_smul, ev_scale, ev_shift, mul_div_cancel₀ _ hw'.ne', add_sub_cancel] at this
  have hc' : (0 : ℝ) < ((common (scale w (shift a p)) : ℚ) : ℝ) := by exact_mod_cast hc
  exact nonneg_of_mul_nonneg_right this hc'

theorem ev_all_zero : ∀ (p : List ℚ), p.all (fun c => decide (c = 0)) = true → ∀ x : ℝ, ev p x = 0
  | [], _, x => rfl
  | c :: p, h, x => by
    simp only [List.all_cons, Bool.and_eq_true, decide_eq_true_eq] at h
    rw [ev_cons, ev_all_zero p h.2 x, h.1]; simp

/-- `p ≤ q` on an interval, by computation. -/
theorem le_of_posOn (n : ℕ) (p q : List ℚ) (a w : ℚ) (hw : 0 < w)
    (h : posOn n (sub q p) a w = true) {x : ℝ} (h0 : (a : ℝ) ≤ x) (h1 : x ≤ a + w) :
    ev p x ≤ ev q x := by
  have := posOn_sound n _ a w hw h x h0 h1
  rw [ev_sub] at this
  linarith

end PolyCheck
