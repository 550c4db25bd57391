import Verif.Spec.ThomasDoubleSpec
import Verif.Lemmas.ThomasRounding

/-!
# Property C91: the Thomas algorithm in double precision
-/

set_option exponentiation.threshold 3000

namespace Verif
open Spec Finset

namespace Thomas

/-- The entry to the left of the diagonal. -/
noncomputable def left (A : Mat ℝ) (i : ℕ) : ℝ := if i = 0 then 0 else A.coeff i (i - 1)

/-- The entry to the right of the diagonal. -/
noncomputable def right (A : Mat ℝ) (i : ℕ) : ℝ := if i + 1 < A.cols then A.coeff i (i + 1) else 0

theorem row_eq {A : Mat ℝ} (hA : Tridiagonal A) {i : ℕ} (hi : i < A.rows) (y : ℕ → ℝ) :
    ∑ j ∈ range A.cols, A.coeff i j * y j = left A i * prev y i + A.coeff i i * y i + right A i * y (i + 1) := by
  rw [row_sum hA hi]
  unfold left right
  congr 1
  · congr 1
    cases i with
    | zero => simp
    | succ i => simp [prev]
  · split <;> simp

theorem slack_eq {A : Mat ℝ} (hA : Tridiagonal A) {i : ℕ} (hi : i < A.rows) : slack A i = |A.coeff i i| - |left A i| - |right A i| := by
  have hA' : Tridiagonal ⟨A.rows, A.cols, fun i j => |A.coeff i j|⟩ :=
    ⟨hA.square, fun i j h1 h2 h => by
      show |A.coeff i j| = 0
      rw [hA.zero i j h1 h2 h, abs_zero]⟩
  have h := row_sum hA' (i := i) hi (fun _ => 1)
  simp only [mul_one] at h
  have hm : i ∈ range A.cols := by rw [mem_range, ← hA.square]; exact hi
  rw [← add_sum_erase _ _ hm] at h
  unfold slack left right
  have e1 : |(if i = 0 then 0 else A.coeff i (i - 1))| = if i = 0 then 0 else |A.coeff i (i - 1)| := by split <;> simp
  have e2 : |(if i + 1 < A.cols then A.coeff i (i + 1) else 0)| = if i + 1 < A.cols then |A.coeff i (i + 1)| else 0 := by split <;> simp
  rw [e1, e2]
  linarith

theorem system_of {A : Mat ℝ} (hA : Tridiagonal A) {l : ℕ} (hl : A.rows = l + 2) {b : List ℝ} {U L W : ℝ} (hs : Scaled A b U L W) :
    System U L W l (left A) (fun i => A.coeff i i) (right A) (entry b) := by
  have hsq := hA.square
  refine ⟨by simp [left], ?_, fun i hi => hs.diagonal i (by omega), fun i hi => ?_, fun i hi => ?_⟩
  · unfold right
    rw [if_neg (by omega)]
  · have := hs.dominant i (by omega)
    rw [slack_eq hA (by omega)] at this
    beta_reduce
    linarith
  · have := hs.rhs i (by omega)
    rwa [slack_eq hA (by omega)] at this

theorem holds_of {A : Mat ℝ} (hA : Tridiagonal A) {l : ℕ} (hl : A.rows = l + 2) {b : List ℝ} (hb : b.length = A.rows) {A' : Mat (Dbl .binary64)}
    {b' : List (Dbl .binary64)} (hd : InDoubles A b A' b') : Holds .binary64 l (left A) (fun i => A.coeff i i) (right A) (entry b)
      (fun i => A'.coeff (i + 1) i) (fun i => A'.coeff i i) (fun i => A'.coeff i (i + 1)) (fun i => b'.getD i (lit 0)) := by
  have hsq := hA.square
  refine ⟨fun i hi => ?_, fun i hi => hd.coeff i i (by omega) (by omega), fun i hi => ?_, fun i hi => ?_⟩
  · rw [hd.coeff _ _ (by omega) (by omega)]
    simp [left]
  · rw [hd.coeff _ _ (by omega) (by omega), right, if_pos (by omega)]
  · have h1 : i < b.length := by omega
    rw [hd.rhs]
    simp [asDoubles, entry, List.getD, h1]

theorem sizes_of {A : Mat ℝ} (h0 : 0 < A.rows) {b : List ℝ} {U L W : ℝ} (hs : Scaled A b U L W) :
    Sizes .binary64 (2 ^ (-53 : ℤ)) (2 ^ (-1075 : ℤ)) (2 ^ (1023 : ℤ)) U L W := by
  have hL : 0 < L := lt_of_lt_of_le (by norm_num) hs.smallL
  have hW : 0 < W := lt_of_lt_of_le (by norm_num) hs.smallW
  have hLU : L ≤ U := by
    have h1 := hs.diagonal 0 h0
    have h2 := hs.dominant 0 h0
    have h3 : 0 ≤ ∑ j ∈ (range A.cols).erase 0, |A.coeff 0 j| := sum_nonneg fun _ _ => abs_nonneg _
    unfold slack at h2
    linarith
  have hU : 0 < U := hL.trans_le hLU
  have u1 := hs.largeU
  have l1 := hs.smallL
  have w1 := hs.largeW
  have w2 := hs.smallW
  have uw1 : U * W ≤ 2 ^ 500 * 2 ^ 500 := mul_le_mul u1 w1 hW.le (by positivity)
  have uw2 : 1 / 2 ^ 500 * (1 / 2 ^ 500) ≤ U * W := mul_le_mul (l1.trans hLU) w2 (by positivity) hU.le
  have q : U * W ≤ 2 ^ 43 * L * 2 ^ 500 := mul_le_mul hs.ratio w1 hW.le (by positivity)
  have r := hs.ratio
  have lu := l1.trans hLU
  refine ⟨binary64_accurate, by positivity, by norm_num, hL, hW, ?_, hLU, ?_, ?_, ?_, ?_, ?_, ?_, ?_, ?_, ?_⟩
  · norm_num at r ⊢
    linarith
  · norm_num
  · norm_num at lu ⊢
    linarith
  · norm_num at w2 ⊢
    linarith
  · norm_num at uw2 ⊢
    generalize U * W = P at *
    linarith
  · norm_num at u1 ⊢
    linarith
  · norm_num at w1 ⊢
    linarith
  · norm_num at uw1 ⊢
    generalize U * W = P at *
    linarith
  · norm_num
  · norm_num at q ⊢
    generalize U * W = P at *
    linarith

end Thomas

/-! ## C91 -/

/-- **C91.** For a tridiagonal system whose diagonal dominates, the Thomas algorithm in double precision returns numbers (no NaN, no infinity).  They satisfy every
equation up to `2⁻⁴⁵ U W`, and they are within `2⁻⁴⁵ (U / L) W` of the solution. -/
theorem C91_residual (A : Mat ℝ) (hA : Tridiagonal A) (h2 : 2 ≤ A.rows) (hm : A.rows ≤ 2 ^ 31 + 1) (b : List ℝ) (hb : b.length = A.rows) {U L W : ℝ}
    (hs : Scaled A b U L W) (A' : Mat (Dbl .binary64)) (b' : List (Dbl .binary64)) (hd : InDoubles A b A' b') :
    ∃ x : List ℝ, thomas A' b' = .ok (asDoubles x) ∧ x.length = A.rows ∧ (∀ i < A.rows, |entry x i| ≤ 4 * W) ∧
      (∀ i < A.rows, defect A b x i ≤ U * W / 2 ^ 45) ∧ ∀ y, Solves A b y → ∀ i < A.rows, |entry x i - entry y i| ≤ U / L * W / 2 ^ 45 := by
  have hsq := hA.square
  obtain ⟨l, hl⟩ : ∃ l, A.rows = l + 2 := ⟨A.rows - 2, by omega⟩
  have sy := Thomas.system_of hA hl hs
  have sz := Thomas.sizes_of (by omega) hs
  obtain ⟨x, e, hx⟩ := Thomas.back_double sz sy (Thomas.holds_of hA hl hb hd)
  have hent : ∀ i < A.rows, entry ((List.range A.rows).map x) i = x i := by
    intro i hi
    simp [entry, List.getD, hi]
  have hres : ∀ i < A.rows, ∑ j ∈ range A.cols, A.coeff i j * entry ((List.range A.rows).map x) j =
      Thomas.left A i * Thomas.prev x i + A.coeff i i * x i + Thomas.right A i * x (i + 1) := by
    intro i hi
    rw [← Thomas.row_eq hA hi]
    refine sum_congr rfl fun j hj => ?_
    rw [mem_range] at hj
    rw [hent j (by omega)]
  have hc : 2 ^ 8 * ((2 : ℝ) ^ (-53 : ℤ) * (U * W)) = U * W / 2 ^ 45 := by
    norm_num
    ring
  rw [hc] at hx
  refine ⟨(List.range A.rows).map x, ?_, by simp, fun i hi => ?_, fun i hi => ?_, fun y hy i hi => ?_⟩
  · have hr := hd.rows
    have hcl := hd.cols
    have hbl : b'.length = A.rows := by rw [hd.rhs, asDoubles, List.length_map, hb]
    rw [thomas, if_neg (by omega), if_neg (by simp only [INT_MAX]; omega), hr, hl]
    rw [asDoubles, List.map_map]
    dsimp only
    congr 1
    refine List.map_congr_left fun i hi => ?_
    rw [List.mem_range] at hi
    have := e (l + 2 - 1 - i) (by omega)
    rw [show l + 1 - (l + 2 - 1 - i) = i by omega] at this
    rw [show l + 2 - 2 = l by omega, this]
    rfl
  · rw [hent i hi]
    exact (hx i (by omega)).1
  · rw [defect, hres i hi]
    exact (hx i (by omega)).2
  · rw [hent i hi]
    have key := Thomas.dominated (l := l) (low := Thomas.left A) (dg := fun i => A.coeff i i) (up := Thomas.right A) (ε := U * W / 2 ^ 45)
      (e := fun i => x i - entry y i) sz.L0 sy.dom sy.last (fun i hi => ?_) i (by omega)
    · refine key.trans (le_of_eq ?_)
      ring
    · have h1 := (hx i hi).2
      have h3 := hy.2.2 i (by omega)
      rw [Thomas.row_eq hA (by omega) (entry y)] at h3
      rw [← h3] at h1
      have h4 : Thomas.prev (fun i => x i - entry y i) i = Thomas.prev x i - Thomas.prev (entry y) i := by cases i <;> simp [Thomas.prev]
      rw [h4]
      refine le_of_eq_of_le (congrArg _ ?_) h1
      ring

/-- **C91.** The same code run in double precision and in exact arithmetic: the two results are within `2⁻⁴⁵ (U / L) W` of each other in every entry, and the exact one is
at most `W`. -/
theorem C91_exact (A : Mat ℝ) (hA : Tridiagonal A) (h2 : 2 ≤ A.rows) (hm : A.rows ≤ 2 ^ 31 + 1) (b : List ℝ) (hb : b.length = A.rows) {U L W : ℝ}
    (hs : Scaled A b U L W) (A' : Mat (Dbl .binary64)) (b' : List (Dbl .binary64)) (hd : InDoubles A b A' b') :
    ∃ x y : List ℝ, thomas A' b' = .ok (asDoubles x) ∧ thomas A b = .ok y ∧ Solves A b y ∧ x.length = y.length ∧
      ∀ i < A.rows, |entry x i - entry y i| ≤ U / L * W / 2 ^ 45 ∧ |entry y i| ≤ W := by
  have hsq := hA.square
  have hL : 0 < L := lt_of_lt_of_le (by norm_num) hs.smallL
  have hW : 0 < W := lt_of_lt_of_le (by norm_num) hs.smallW
  obtain ⟨x, e, xl, -, -, hx⟩ := C91_residual A hA h2 hm b hb hs A' b' hd
  have hdom : StrictlyDominant A := fun i hi => by
    have := hs.dominant i hi
    unfold slack at this
    linarith
  obtain ⟨y, ey, hy, -⟩ := (C47_dominant A hA h2 hm hdom).2 b hb
  refine ⟨x, y, e, ey, hy, by rw [xl, hy.1, hsq], fun i hi => ⟨hx y hy i hi, ?_⟩⟩
  obtain ⟨k, hk, hmax⟩ := exists_max_image (range A.cols) (fun i => |entry y i|) ⟨0, by rw [mem_range]; omega⟩
  rw [mem_range] at hk
  refine (hmax i (by rw [mem_range]; omega)).trans ?_
  have h1 := hy.2.2 k (by omega)
  rw [← add_sum_erase _ _ (by rwa [mem_range] : k ∈ range A.cols)] at h1
  have h3 : |∑ j ∈ (range A.cols).erase k, A.coeff k j * entry y j| ≤ (∑ j ∈ (range A.cols).erase k, |A.coeff k j|) * |entry y k| := by
    rw [sum_mul]
    refine (abs_sum_le_sum_abs _ _).trans (sum_le_sum fun j hj => ?_)
    rw [abs_mul]
    exact mul_le_mul_of_nonneg_left (hmax j (mem_of_mem_erase hj)) (abs_nonneg _)
  have h4 := hs.rhs k (by omega)
  have h5 := hs.dominant k (by omega)
  have h6 : |A.coeff k k * entry y k| ≤ |entry b k| + |∑ j ∈ (range A.cols).erase k, A.coeff k j * entry y j| := by
    rw [show A.coeff k k * entry y k = entry b k - ∑ j ∈ (range A.cols).erase k, A.coeff k j * entry y j by linarith]
    exact abs_sub _ _
  rw [abs_mul] at h6
  have h7 : |entry y k| * slack A k ≤ W * slack A k := by
    have : |entry y k| * slack A k = |A.coeff k k| * |entry y k| - (∑ j ∈ (range A.cols).erase k, |A.coeff k j|) * |entry y k| := by
      unfold slack
      ring
    linarith
  exact le_of_mul_le_mul_right h7 (by linarith)

/-! ### Examples -/

/-- The matrix of size 1000 with diagonal 4 and off-diagonals 1, and a right hand side with entries up to 2: the solution in double precision is within `2⁻⁴²` of the exact one. -/
example (b : List ℝ) (hb : b.length = 1000) (hb2 : ∀ i < 1000, |entry b i| ≤ 2) : ∃ x y : List ℝ,
    thomas (⟨1000, 1000, fun i j => .num ((if i = j then 4 else if i + 1 = j ∨ j + 1 = i then 1 else 0 : ℝ) : EReal)⟩ : Mat (Dbl .binary64))
      (asDoubles b) = .ok (asDoubles x) ∧
    Solves ⟨1000, 1000, fun i j => if i = j then 4 else if i + 1 = j ∨ j + 1 = i then 1 else 0⟩ b y ∧ ∀ i < 1000, |entry x i - entry y i| ≤ 1 / 2 ^ 42 := by
  have hA := (exampleMat 1000).1
  have hsl : ∀ i < 1000, 2 ≤ slack ⟨1000, 1000, fun i j => if i = j then 4 else if i + 1 = j ∨ j + 1 = i then 1 else 0⟩ i := by
    intro i hi
    rw [Thomas.slack_eq hA hi]
    have h1 : |Thomas.left ⟨1000, 1000, fun i j => if i = j then 4 else if i + 1 = j ∨ j + 1 = i then 1 else 0⟩ i| ≤ 1 := by
      unfold Thomas.left
      split
      · simp
      · dsimp only
        rw [if_neg (by omega)]
        split <;> simp
    have h2 : |Thomas.right ⟨1000, 1000, fun i j => if i = j then 4 else if i + 1 = j ∨ j + 1 = i then 1 else 0⟩ i| ≤ 1 := by
      unfold Thomas.right
      split
      · simp
      · simp
    simp only [if_true]
    norm_num
    linarith
  obtain ⟨x, y, e, -, hy, -, h⟩ := C91_exact _ hA (by norm_num) (by norm_num) b hb (U := 4) (L := 2) (W := 1)
    ⟨fun i hi => by simp, fun i hi => hsl i hi, fun i hi => by
      rw [one_mul]
      exact (hb2 i hi).trans (hsl i hi), by norm_num, by norm_num, by norm_num, by norm_num, by norm_num⟩
    ⟨1000, 1000, fun i j => .num ((if i = j then 4 else if i + 1 = j ∨ j + 1 = i then 1 else 0 : ℝ) : EReal)⟩ _ ⟨rfl, rfl, fun _ _ _ _ => rfl, rfl⟩
  refine ⟨x, y, e, hy, fun i hi => (h i hi).1.trans ?_⟩
  norm_num

end Verif
