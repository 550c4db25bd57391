import Verif.Spec.LinearSystem
import Mathlib.Algebra.BigOperators.Fin
import Mathlib.Algebra.Order.BigOperators.Group.Finset
import Mathlib.Tactic.Linarith
import Mathlib.Tactic.IntervalCases
import Mathlib.Tactic.FieldSimp
import Mathlib.Tactic.LinearCombination
import Mathlib.Tactic.NormNum

/-!
# Properties C46 and C47: the Thomas algorithm
-/

namespace Verif
open Spec Finset

namespace Thomas

/-- The denominators of the sweep. -/
noncomputable def den (sub diag sup b : ℕ → ℝ) : ℕ → ℝ
  | 0 => diag 0
  | i + 1 => diag (i + 1) - sub i * (sweep sub diag sup b i).1

/-- Row `i` of the system. -/
def RowEq (sub diag sup b y : ℕ → ℝ) : ℕ → Prop
  | 0 => diag 0 * y 0 + sup 0 * y 1 = b 0
  | i + 1 => sub i * y i + diag (i + 1) * y (i + 1) + sup (i + 1) * y (i + 2) = b (i + 1)

variable {sub diag sup b y : ℕ → ℝ}

theorem row_iff (i : ℕ) (h : den sub diag sup b i ≠ 0)
    (hp : ∀ j, j + 1 = i → y j + (sweep sub diag sup b j).1 * y (j + 1) = (sweep sub diag sup b j).2) :
    RowEq sub diag sup b y i ↔ y i + (sweep sub diag sup b i).1 * y (i + 1) = (sweep sub diag sup b i).2 := by
  cases i with
  | zero =>
    simp only [RowEq, sweep, den] at h ⊢
    field_simp
  | succ i =>
    have hp := hp i rfl
    simp only [den] at h
    have e : y i = (sweep sub diag sup b i).2 - (sweep sub diag sup b i).1 * y (i + 1) := by linarith
    simp only [RowEq]
    rw [show (sweep sub diag sup b (i + 1)).1 = sup (i + 1) / (diag (i + 1) - sub i * (sweep sub diag sup b i).1) from rfl,
      show (sweep sub diag sup b (i + 1)).2 = (b (i + 1) - sub i * (sweep sub diag sup b i).2) /
        (diag (i + 1) - sub i * (sweep sub diag sup b i).1) from rfl, e]
    generalize (sweep sub diag sup b i).1 = p at *
    generalize (sweep sub diag sup b i).2 = q at *
    rw [eq_div_iff h, add_mul, div_mul_eq_mul_div, div_mul_cancel₀ _ h]
    constructor <;> intro h' <;> linear_combination h'

theorem rows_iff : ∀ (i : ℕ), (∀ j ≤ i, den sub diag sup b j ≠ 0) →
    ((∀ j ≤ i, RowEq sub diag sup b y j) ↔
      ∀ j ≤ i, y j + (sweep sub diag sup b j).1 * y (j + 1) = (sweep sub diag sup b j).2)
  | 0, h => by
    constructor <;> intro h' j hj <;> obtain rfl : j = 0 := by omega
    · exact (row_iff 0 (h 0 le_rfl) (by omega)).mp (h' 0 le_rfl)
    · exact (row_iff 0 (h 0 le_rfl) (by omega)).mpr (h' 0 le_rfl)
  | i + 1, h => by
    have ih := rows_iff i (fun j hj => h j (by omega))
    constructor
    · intro h' j hj
      rcases Nat.lt_or_ge j (i + 1) with hlt | hge
      · exact ih.mp (fun k hk => h' k (by omega)) j (by omega)
      · obtain rfl : j = i + 1 := by omega
        refine (row_iff (i + 1) (h _ le_rfl) fun k hk => ?_).mp (h' _ le_rfl)
        obtain rfl : k = i := by omega
        exact ih.mp (fun k hk => h' k (by omega)) k le_rfl
    · intro h' j hj
      rcases Nat.lt_or_ge j (i + 1) with hlt | hge
      · exact ih.mpr (fun k hk => h' k (by omega)) j (by omega)
      · obtain rfl : j = i + 1 := by omega
        refine (row_iff (i + 1) (h _ le_rfl) fun k hk => ?_).mpr (h' _ le_rfl)
        exact h' k (by omega)

/-- The last row. -/
def LastRow (sub diag b y : ℕ → ℝ) (l : ℕ) : Prop := sub l * y l + diag (l + 1) * y (l + 1) = b (l + 1)

theorem system_iff (l : ℕ) (h : ∀ j ≤ l + 1, den sub diag sup b j ≠ 0) :
    ((∀ j ≤ l, RowEq sub diag sup b y j) ∧ LastRow sub diag b y l) ↔
      ∀ k ≤ l + 1, y (l + 1 - k) = back sub diag sup b l k := by
  rw [rows_iff l (fun j hj => h j (by omega))]
  have hl : den sub diag sup b (l + 1) ≠ 0 := h _ le_rfl
  simp only [den] at hl
  have key : (y l + (sweep sub diag sup b l).1 * y (l + 1) = (sweep sub diag sup b l).2) →
      (LastRow sub diag b y l ↔ y (l + 1) = last sub diag sup b l) := by
    intro hr
    have e : y l = (sweep sub diag sup b l).2 - (sweep sub diag sup b l).1 * y (l + 1) := by linarith
    rw [LastRow, last, e, eq_div_iff hl]
    constructor <;> intro h' <;> linear_combination h'
  constructor
  · rintro ⟨h1, h2⟩ k
    induction k with
    | zero =>
      intro _
      exact (key (h1 l le_rfl)).mp h2
    | succ k ih =>
      intro hk
      have := ih (by omega)
      rw [back, ← this]
      have h3 := h1 (l - k) (by omega)
      rw [show l + 1 - (k + 1) = l - k by omega]
      rw [show l - k + 1 = l + 1 - k by omega] at h3
      linarith
  · intro hb
    have h1 : ∀ j ≤ l, y j + (sweep sub diag sup b j).1 * y (j + 1) = (sweep sub diag sup b j).2 := by
      intro j hj
      have e1 := hb (l - j + 1) (by omega)
      have e2 := hb (l - j) (by omega)
      rw [show l + 1 - (l - j + 1) = j by omega, back, ← e2, show l - (l - j) = j by omega,
        show l + 1 - (l - j) = j + 1 by omega] at e1
      linarith
    refine ⟨h1, (key (h1 l le_rfl)).mpr ?_⟩
    exact hb 0 (by omega)

theorem den_eq_pivot (A : Mat ℝ) (b : ℕ → ℝ) : ∀ i,
    den (fun i => A.coeff (i + 1) i) (fun i => A.coeff i i) (fun i => A.coeff i (i + 1)) b i = pivot A i ∧
    (sweep (fun i => A.coeff (i + 1) i) (fun i => A.coeff i i) (fun i => A.coeff i (i + 1)) b i).1 =
      A.coeff i (i + 1) / pivot A i
  | 0 => ⟨rfl, rfl⟩
  | i + 1 => by
    have ih := den_eq_pivot A b i
    have e : den (fun i => A.coeff (i + 1) i) (fun i => A.coeff i i) (fun i => A.coeff i (i + 1)) b (i + 1) = pivot A (i + 1) := by
      rw [den, ih.2, pivot]
      ring
    refine ⟨e, ?_⟩
    rw [← e]
    rfl

end Thomas

/-- A row of a tridiagonal matrix has at most three terms. -/
theorem row_sum {A : Mat ℝ} (hA : Tridiagonal A) {i : ℕ} (hi : i < A.rows) (y : ℕ → ℝ) :
    ∑ j ∈ range A.cols, A.coeff i j * y j =
      (if i = 0 then 0 else A.coeff i (i - 1) * y (i - 1)) + A.coeff i i * y i +
        (if i + 1 < A.cols then A.coeff i (i + 1) * y (i + 1) else 0) := by
  have hsq := hA.square
  have hterm : ∀ j ∈ range A.cols, A.coeff i j * y j =
      (if i = 0 then 0 else if j = i - 1 then A.coeff i j * y j else 0) + (if j = i then A.coeff i j * y j else 0) +
        (if j = i + 1 then A.coeff i j * y j else 0) := by
    intro j hj
    rw [mem_range] at hj
    by_cases h1 : j = i
    · subst h1
      by_cases h0 : j = 0
      · simp [h0]
      · simp [h0, show j ≠ j - 1 by omega]
    · by_cases h2 : j = i + 1
      · subst h2
        simp [show i + 1 ≠ i - 1 by omega]
      · by_cases h3 : j + 1 = i
        · subst h3
          simp [show j ≠ j + 1 + 1 by omega]
        · rw [hA.zero i j hi hj (by omega)]
          simp
  rw [sum_congr rfl hterm, sum_add_distrib, sum_add_distrib, sum_ite_eq' (range A.cols) i,
    sum_ite_eq' (range A.cols) (i + 1)]
  have h1 : i ∈ range A.cols := by rw [mem_range]; omega
  rw [if_pos h1]
  congr 1
  · congr 1
    by_cases h0 : i = 0
    · simp [h0]
    · simp only [if_neg h0]
      rw [sum_ite_eq' (range A.cols) (i - 1), if_pos (by rw [mem_range]; omega)]
  · simp only [mem_range]

/-- The system in the form used by the sweep. -/
theorem solves_iff {A : Mat ℝ} (hA : Tridiagonal A) {l : ℕ} (hl : A.rows = l + 2) {b x : List ℝ} (hb : b.length = A.rows)
    (hx : x.length = A.rows) : Solves A b x ↔
      (∀ j ≤ l, Thomas.RowEq (fun i => A.coeff (i + 1) i) (fun i => A.coeff i i) (fun i => A.coeff i (i + 1)) (entry b) (entry x) j) ∧
      Thomas.LastRow (fun i => A.coeff (i + 1) i) (fun i => A.coeff i i) (entry b) (entry x) l := by
  have hsq := hA.square
  have inner : ∀ j ≤ l, (∑ k ∈ range A.cols, A.coeff j k * entry x k = entry b j ↔
      Thomas.RowEq (fun i => A.coeff (i + 1) i) (fun i => A.coeff i i) (fun i => A.coeff i (i + 1)) (entry b) (entry x) j) := by
    intro j hj
    rw [row_sum hA (by omega), if_pos (show j + 1 < A.cols by omega)]
    cases j with
    | zero => simp [Thomas.RowEq]
    | succ j => simp [Thomas.RowEq, add_assoc]
  have last : (∑ k ∈ range A.cols, A.coeff (l + 1) k * entry x k = entry b (l + 1) ↔
      Thomas.LastRow (fun i => A.coeff (i + 1) i) (fun i => A.coeff i i) (entry b) (entry x) l) := by
    rw [row_sum hA (by omega), if_neg (show ¬ l + 1 + 1 < A.cols by omega)]
    simp [Thomas.LastRow]
  constructor
  · rintro ⟨-, -, h⟩
    exact ⟨fun j hj => (inner j hj).mp (h j (by omega)), last.mp (h (l + 1) (by omega))⟩
  · rintro ⟨h1, h2⟩
    refine ⟨hx.trans hsq, hb, fun i hi => ?_⟩
    rcases Nat.lt_or_ge i (l + 1) with hlt | hge
    · exact (inner i (by omega)).mpr (h1 i (by omega))
    · obtain rfl : i = l + 1 := by omega
      exact last.mpr h2

/-! ## C46 -/

/-- **C46.** `ThomasAlgorithm::solve` throws `invalid_argument` for matrices with fewer than two rows,
in any arithmetic. -/
theorem C46_throws {F : Type} [Fl F] [Add F] [Sub F] [Mul F] [Div F] (A : Mat F) (b : List F) (h : A.rows < 2) :
    (thomas A b).Throws .invalidArgument := by
  simp [thomas, h, invalidArg]

/-- **C46.** For a tridiagonal system of at least two equations for which no pivot vanishes, the Thomas
algorithm returns the solution, and it is the only one. -/
theorem C46_solves (A : Mat ℝ) (hA : Tridiagonal A) (h2 : 2 ≤ A.rows) (hm : A.rows ≤ 2 ^ 31 + 1) (b : List ℝ)
    (hb : b.length = A.rows) (hp : ∀ i < A.rows, pivot A i ≠ 0) :
    ∃ x, thomas A b = .ok x ∧ Solves A b x ∧ ∀ y, Solves A b y → y = x := by
  have hsq := hA.square
  obtain ⟨l, hl⟩ : ∃ l, A.rows = l + 2 := ⟨A.rows - 2, by omega⟩
  let x := (List.range A.rows).map fun i => Thomas.back (fun i => A.coeff (i + 1) i) (fun i => A.coeff i i)
    (fun i => A.coeff i (i + 1)) (entry b) l (l + 1 - i)
  have hxl : x.length = A.rows := by simp [x]
  have hent : ∀ i < A.rows, entry x i = Thomas.back (fun i => A.coeff (i + 1) i) (fun i => A.coeff i i)
      (fun i => A.coeff i (i + 1)) (entry b) l (l + 1 - i) := by
    intro i hi
    simp [x, entry, List.getD, hi]
  have hden : ∀ j ≤ l + 1, Thomas.den (fun i => A.coeff (i + 1) i) (fun i => A.coeff i i) (fun i => A.coeff i (i + 1)) (entry b) j ≠ 0 := by
    intro j hj
    rw [(Thomas.den_eq_pivot A (entry b) j).1]
    exact hp j (by omega)
  refine ⟨x, ?_, ?_, ?_⟩
  · rw [thomas, if_neg (by omega), if_neg (by simp only [INT_MAX]; omega), hl]
    have hz : (fun i => b.getD i (lit 0)) = entry b := by funext i; simp [entry]
    simp only [x, hl, hz]
    rfl
  · rw [solves_iff hA hl hb hxl, Thomas.system_iff l hden]
    intro k hk
    rw [hent _ (by omega), show l + 1 - (l + 1 - k) = k by omega]
  · intro y hy
    have hyl : y.length = A.rows := hy.1.trans hsq.symm
    rw [solves_iff hA hl hb hyl, Thomas.system_iff l hden] at hy
    apply List.ext_getElem (hyl.trans hxl.symm)
    intro i h1 h2
    have e := hy (l + 1 - i) (by omega)
    rw [show l + 1 - (l + 1 - i) = i by omega, ← hent i (by omega)] at e
    simpa [entry, List.getD, List.getElem?_eq_getElem h1, List.getElem?_eq_getElem h2] using e

/-! ## C47 -/

/-- The pivots of a strictly diagonally dominant tridiagonal matrix dominate the superdiagonal. -/
theorem pivot_dominates {A : Mat ℝ} (hA : Tridiagonal A) (hd : StrictlyDominant A) : ∀ i, i < A.rows →
    pivot A i ≠ 0 ∧ (i + 1 < A.rows → |A.coeff i (i + 1)| < |pivot A i|) := by
  have hsq := hA.square
  have two : ∀ i, i + 1 < A.rows → |A.coeff (i + 1) i| +
      (if i + 2 < A.rows then |A.coeff (i + 1) (i + 2)| else 0) < |A.coeff (i + 1) (i + 1)| := by
    intro i hi
    have h := hd (i + 1) hi
    refine lt_of_le_of_lt ?_ h
    by_cases h2 : i + 2 < A.rows
    · rw [if_pos h2]
      have hsub : ({i, i + 2} : Finset ℕ) ⊆ (range A.cols).erase (i + 1) := by
        intro j hj
        simp only [mem_insert, mem_singleton] at hj
        simp only [mem_erase, mem_range]
        omega
      have := sum_le_sum_of_subset_of_nonneg hsub (f := fun j => |A.coeff (i + 1) j|) (fun _ _ _ => abs_nonneg _)
      rwa [sum_pair (by omega)] at this
    · rw [if_neg h2, add_zero]
      exact single_le_sum (f := fun j => |A.coeff (i + 1) j|) (fun _ _ => abs_nonneg _)
        (by simp only [mem_erase, mem_range]; omega)
  intro i
  induction i with
  | zero =>
    intro hi
    have h := hd 0 hi
    have h0 : 0 ≤ ∑ j ∈ (range A.cols).erase 0, |A.coeff 0 j| := sum_nonneg fun _ _ => abs_nonneg _
    refine ⟨abs_pos.mp (lt_of_le_of_lt h0 h), fun h1 => lt_of_le_of_lt ?_ h⟩
    exact single_le_sum (f := fun j => |A.coeff 0 j|) (fun _ _ => abs_nonneg _) (by simp only [mem_erase, mem_range]; omega)
  | succ i ih =>
    intro hi
    obtain ⟨hp, hlt⟩ := ih (by omega)
    have hlt := hlt hi
    have h2 := two i hi
    have hpos : 0 < |pivot A i| := abs_pos.mpr hp
    have hq : |A.coeff (i + 1) i / pivot A i * A.coeff i (i + 1)| ≤ |A.coeff (i + 1) i| := by
      rw [abs_mul, abs_div, div_mul_eq_mul_div, div_le_iff₀ hpos]
      exact mul_le_mul_of_nonneg_left hlt.le (abs_nonneg _)
    have hge : |A.coeff (i + 1) (i + 1)| - |A.coeff (i + 1) i| ≤ |pivot A (i + 1)| := by
      rw [pivot]
      have := abs_sub_abs_le_abs_sub (A.coeff (i + 1) (i + 1)) (A.coeff (i + 1) i / pivot A i * A.coeff i (i + 1))
      linarith
    constructor
    · apply abs_pos.mp
      have : 0 ≤ (if i + 2 < A.rows then |A.coeff (i + 1) (i + 2)| else 0) := by
        split
        · exact abs_nonneg _
        · exact le_rfl
      linarith
    · intro h3
      rw [if_pos h3] at h2
      show |A.coeff (i + 1) (i + 2)| < _
      linarith

/-- **C47.** For a strictly diagonally dominant tridiagonal matrix no pivot vanishes, so the Thomas
algorithm returns the unique solution. -/
theorem C47_dominant (A : Mat ℝ) (hA : Tridiagonal A) (h2 : 2 ≤ A.rows) (hm : A.rows ≤ 2 ^ 31 + 1)
    (hd : StrictlyDominant A) :
    (∀ i < A.rows, pivot A i ≠ 0) ∧
    ∀ b : List ℝ, b.length = A.rows → ∃ x, thomas A b = .ok x ∧ Solves A b x ∧ ∀ y, Solves A b y → y = x :=
  ⟨fun i hi => (pivot_dominates hA hd i hi).1,
    fun b hb => C46_solves A hA h2 hm b hb fun i hi => (pivot_dominates hA hd i hi).1⟩

/-- The code does not check the pivots: for a nonsingular system with a vanishing first pivot the
result is silently NaN (double arithmetic, any rounding). -/
theorem C46_zeroPivot {R : Rounding} :
    thomas (⟨2, 2, fun i j => if i = j then .num 0 else .num 1⟩ : Mat (Dbl R)) [.num 1, .num 1] = .ok [.nan, .nan] ∧
    Solves ⟨2, 2, fun i j => if i = j then 0 else 1⟩ [1, 1] [1, 1] := by
  constructor
  · have h1 : (.num 1 / .num 0 : Dbl R) = .num ⊤ := by simp [Dbl.div_num]
    have h2 : (.num 1 * .num ⊤ : Dbl R) = .num ⊤ := by simp [Dbl.mul_num]
    simp [thomas, INT_MAX, List.range_succ, Thomas.back, Thomas.last, Thomas.sweep, h1, h2, Dbl.sub_def, Dbl.add_num]
    have h3 : (1 : EReal) ≠ ⊤ := EReal.coe_ne_top 1
    have h4 : (.num ⊥ / .num ⊥ : Dbl R) = .nan := by simp [Dbl.div_num]
    simp [h3, h4]
  · refine ⟨rfl, rfl, fun i hi => ?_⟩
    have hi : i < 2 := hi
    interval_cases i <;> simp [sum_range_succ, entry]

/-! ### Examples -/

/-- The matrix with diagonal 4 and off-diagonals 1 of any size is strictly dominant. -/
theorem exampleMat (n : ℕ) : Tridiagonal ⟨n, n, fun i j => if i = j then 4 else if i + 1 = j ∨ j + 1 = i then 1 else 0⟩ ∧
    StrictlyDominant ⟨n, n, fun i j => if i = j then 4 else if i + 1 = j ∨ j + 1 = i then 1 else 0⟩ := by
  refine ⟨⟨rfl, fun i j _ _ h => ?_⟩, fun i hi => ?_⟩
  · dsimp only
    rw [if_neg (by omega), if_neg (by omega)]
  · dsimp only
    rw [if_pos rfl]
    have hle : ∑ j ∈ (range n).erase i, |(if i = j then (4 : ℝ) else if i + 1 = j ∨ j + 1 = i then 1 else 0)| ≤
        ∑ j ∈ (range n).erase i, ((if j = i + 1 then (1 : ℝ) else 0) + (if j = i - 1 then 1 else 0)) := by
      refine sum_le_sum fun j hj => ?_
      rw [mem_erase] at hj
      rw [if_neg (Ne.symm hj.1)]
      by_cases h1 : i + 1 = j
      · subst h1
        simp
        split <;> norm_num
      · by_cases h2 : j + 1 = i
        · rw [if_pos (.inr h2), if_neg (by omega), if_pos (by omega)]
          norm_num
        · rw [if_neg (by omega)]
          split <;> split <;> norm_num
    refine lt_of_le_of_lt hle ?_
    rw [sum_add_distrib, sum_ite_eq', sum_ite_eq']
    split <;> split <;> norm_num

example (b : List ℝ) (hb : b.length = 1000) : ∃ x,
    thomas ⟨1000, 1000, fun i j => if i = j then 4 else if i + 1 = j ∨ j + 1 = i then 1 else 0⟩ b = .ok x ∧
    Solves ⟨1000, 1000, fun i j => if i = j then 4 else if i + 1 = j ∨ j + 1 = i then 1 else 0⟩ b x := by
  obtain ⟨x, h1, h2, -⟩ := (C47_dominant _ (exampleMat 1000).1 (by norm_num) (by norm_num) (exampleMat 1000).2).2 b hb
  exact ⟨x, h1, h2⟩

/-- A system that is not diagonally dominant but has nonzero pivots. -/
example : ∃ x, thomas ⟨2, 2, fun i j => if i = j then 1 else 3⟩ [1, 2] = .ok x ∧
    Solves ⟨2, 2, fun i j => if i = j then 1 else 3⟩ [1, 2] x := by
  obtain ⟨x, h1, h2, -⟩ := C46_solves ⟨2, 2, fun i j => if i = j then 1 else 3⟩
    ⟨rfl, fun i j h1 h2 h => by simp only at h1 h2; omega⟩ le_rfl (by norm_num) [1, 2] rfl (by
      intro i hi
      have hi : i < 2 := hi
      interval_cases i <;> norm_num [pivot])
  exact ⟨x, h1, h2⟩

end Verif
