import Verif.Props.BasisFunctions
import Verif.Lemmas.Projection
import Verif.Spec.LsmcSpec

/-!
# C50, C51, C52: the regressions

Eigen's solvers are arbitrary functions with the contracts of `Spec.RegressionSpec`; both contracts
can be met (`leastSquares_exists`, `definite_exists`).
-/

namespace Verif
open Finset Polynomial Spec

/-! ## C50 -/

/-- The design matrix of a basis. -/
noncomputable def design (k : BasisKind) (N : ℕ) (xs : List ℝ) : Mat ℝ :=
  Mat.ofRows (xs.map fun x => (List.range N).map fun n => k.col x n)

theorem design_rows (k : BasisKind) (N : ℕ) (xs : List ℝ) : (design k N xs).rows = xs.length := by
  simp [design, Mat.ofRows]

theorem design_cols (k : BasisKind) (N : ℕ) (xs : List ℝ) (h : xs ≠ []) : (design k N xs).cols = N := by
  cases xs with
  | nil => exact absurd rfl h
  | cons x xs => simp [design, Mat.ofRows]

theorem design_fitted (k : BasisKind) (N : ℕ) (xs : List ℝ) (h : xs ≠ []) (z : ℕ → ℝ) (i : ℕ) (hi : i < xs.length) :
    fitted (design k N xs) z i = ∑ n ∈ range N, k.col (entry xs i) n * z n := by
  rw [fitted, design_cols k N xs h]
  refine sum_congr rfl fun n hn => ?_
  simp [design, Mat.ofRows, List.getD, hi, mem_range.1 hn, entry]

theorem design_error (k : BasisKind) (N : ℕ) (xs ys : List ℝ) (h : xs ≠ []) (z : ℕ → ℝ) (q : ℝ[X])
    (hq : ∀ x, ∑ n ∈ range N, k.col x n * z n = q.eval x) :
    squaredError (design k N xs) ys z = polyError q xs ys := by
  rw [squaredError, polyError, design_rows]
  exact sum_congr rfl fun i hi => by rw [design_fitted k N xs h z i (mem_range.1 hi), hq]

/-- **C50, fit**: with least squares regression, whatever the basis, the coefficients returned for a
sample are those of a polynomial of degree below `N` that fits the sample best. -/
theorem C50_fit (e : EigenSolvers ℝ) (he : LeastSquaresSolver e.svdSolve) (k : BasisKind) (N : ℕ)
    (hN : N ≤ k.maxBasis) (xs ys : List ℝ) (hxs : xs ≠ []) (hl : xs.length = ys.length) :
    ∃ rows c q, k.generate N xs = .ok rows ∧ Regression.leastSquares.solve e (Mat.ofRows rows) ys = .ok c ∧
      c.length = N ∧ BestPolynomial N xs ys q ∧
      ∀ i < xs.length, fitted (Mat.ofRows rows) (entry c) i = q.eval (entry xs i) := by
  obtain ⟨c, hc, hlen, hmin⟩ := he (design k N xs) ys (by rw [design_rows, hl])
  obtain ⟨q, hq, hqe⟩ := (col_span k N (fun x => ∑ n ∈ range N, k.col x n * entry c n)).1 ⟨_, fun _ => rfl⟩
  refine ⟨xs.map fun x => (List.range N).map fun n => k.col x n, c, q,
    by simp [BasisKind.generate, Nat.not_lt.2 hN], ?_, by rw [hlen, design_cols k N xs hxs], ⟨hq, ?_⟩, ?_⟩
  · have : ys.length = (design k N xs).rows := by rw [design_rows, hl]
    rw [Regression.solve]
    exact (if_pos this).trans hc
  · intro q' hq'
    obtain ⟨d, hd⟩ := (col_span k N (fun x => q'.eval x)).2 ⟨q', hq', fun _ => rfl⟩
    rw [← design_error k N xs ys hxs (entry c) q hqe, ← design_error k N xs ys hxs d q' fun x => (hd x).symm]
    exact hmin d
  · intro i hi
    rw [← hqe]
    exact design_fitted k N xs hxs _ i hi

/-- **C50, uniqueness**: two best polynomials have the same values on the sample. -/
theorem C50_unique (N : ℕ) (xs ys : List ℝ) (p q : ℝ[X]) (hp : BestPolynomial N xs ys p)
    (hq : BestPolynomial N xs ys q) : ∀ i < xs.length, p.eval (entry xs i) = q.eval (entry xs i) := by
  intro i hi
  have h := hp.2 (C (1 / 2) * (p + q)) (by
    rw [degree_C_mul (by norm_num)]
    exact (degree_add_le _ _).trans_lt (max_lt hp.1 hq.1))
  have h1 := hp.2 q hq.1
  have h2 := hq.2 p hp.1
  have e : polyError (C (1 / 2) * (p + q)) xs ys = 1 / 2 * polyError p xs ys + 1 / 2 * polyError q xs ys
      - 1 / 4 * ∑ i ∈ range xs.length, (p.eval (entry xs i) - q.eval (entry xs i)) ^ 2 := by
    simp only [polyError, mul_sum, ← sum_add_distrib, ← sum_sub_distrib]
    exact sum_congr rfl fun i _ => by simp only [eval_mul, eval_C, eval_add]; ring
  have h3 : ∑ i ∈ range xs.length, (p.eval (entry xs i) - q.eval (entry xs i)) ^ 2 = 0 :=
    le_antisymm (by linarith) (sum_nonneg fun _ _ => sq_nonneg _)
  have := (sum_eq_zero_iff_of_nonneg (fun i _ => sq_nonneg _)).1 h3 i (mem_range.2 hi)
  exact sub_eq_zero.1 (pow_eq_zero_iff (by norm_num) |>.1 this)

/-- **C50**: with least squares regression the fitted values do not depend on the basis. -/
theorem C50_fitted (e : EigenSolvers ℝ) (he : LeastSquaresSolver e.svdSolve) (k k' : BasisKind) (N : ℕ)
    (hN : N ≤ k.maxBasis) (hN' : N ≤ k'.maxBasis) (xs ys : List ℝ) (hxs : xs ≠ [])
    (hl : xs.length = ys.length) :
    ∃ rows c rows' c', k.generate N xs = .ok rows ∧ k'.generate N xs = .ok rows' ∧
      Regression.leastSquares.solve e (Mat.ofRows rows) ys = .ok c ∧
      Regression.leastSquares.solve e (Mat.ofRows rows') ys = .ok c' ∧
      ∀ i < xs.length, fitted (Mat.ofRows rows) (entry c) i = fitted (Mat.ofRows rows') (entry c') i := by
  obtain ⟨rows, c, q, h1, h2, -, hq, h3⟩ := C50_fit e he k N hN xs ys hxs hl
  obtain ⟨rows', c', q', h1', h2', -, hq', h3'⟩ := C50_fit e he k' N hN' xs ys hxs hl
  exact ⟨rows, c, rows', c', h1, h1', h2, h2', fun i hi => by
    rw [h3 i hi, h3' i hi, C50_unique N xs ys q q' hq hq' i hi]⟩

/-! The whole American pricer. -/

theorem foldl_zip (a b : List ℝ) (s : ℝ) (h : a.length = b.length) :
    (List.zipWith (· * ·) a b).foldl (· + ·) s = s + ∑ j ∈ range a.length, entry a j * entry b j := by
  induction a generalizing b s with
  | nil => simp
  | cons x a ih =>
    cases b with
    | nil => simp at h
    | cons y b =>
      rw [List.zipWith_cons_cons, List.foldl_cons, ih b _ (by simpa using h), List.length_cons, sum_range_succ']
      simp [entry]
      ring

theorem exercise_congr (pay : ℝ → Res ℝ) (df : ℝ) (b b' : List (List ℝ)) (c c' : List ℝ)
    (h : ∀ i, (vget b i >>= fun row => MC.dot row c) = (vget b' i >>= fun row => MC.dot row c'))
    (l : List (ℝ × Bool × ℝ)) (i : ℕ) :
    MC.exerciseOrContinue pay df b c l i = MC.exerciseOrContinue pay df b' c' l i := by
  induction l generalizing i with
  | nil => rfl
  | cons x l ih =>
    obtain ⟨S, itm, v⟩ := x
    simp only [MC.exerciseOrContinue, ih]
    split
    · cases pay S with
      | ok a =>
        have := h i
        show (vget b i >>= fun row => MC.dot row c >>= fun cont => _) = (vget b' i >>= fun row => MC.dot row c' >>= fun cont => _)
        rw [← bind_assoc, ← bind_assoc, this]
      | throw x => rfl
      | ub => rfl
    · rfl

theorem collect_lengths (df : ℝ) (l : List (ℝ × ℝ × ℝ)) :
    (MC.collect df l).1.length = (MC.collect df l).2.1.length := by
  induction l with
  | nil => rfl
  | cons x l ih =>
    obtain ⟨S, e, c⟩ := x
    simp only [MC.collect]
    split <;> simp [ih]

theorem dot_design (k : BasisKind) (N : ℕ) (xs : List ℝ) (hxs : xs ≠ []) (c : List ℝ) (hc : c.length = N) (i : ℕ) :
    (vget (xs.map fun x => (List.range N).map fun n => k.col x n) i >>= fun row => MC.dot row c) =
      if i < xs.length then .ok (fitted (design k N xs) (entry c) i) else .ub := by
  by_cases hi : i < xs.length
  · rw [if_pos hi, design_fitted k N xs hxs _ i hi]
    have hv : vget (xs.map fun x => (List.range N).map fun n => k.col x n) i
        = .ok ((List.range N).map fun n => k.col (entry xs i) n) := by
      simp [vget, hi, entry, List.getD]
    rw [hv]
    show MC.dot _ _ = _
    rw [MC.dot, if_pos (by simp [hc]), foldl_zip _ _ _ (by simp [hc])]
    simp only [List.length_map, List.length_range, Fl.lit_real]
    push_cast
    rw [zero_add]
    congr 1
    refine sum_congr rfl fun n hn => ?_
    congr 1
    simp [entry, List.getD, mem_range.1 hn]
  · rw [if_neg hi]
    have hv : vget (xs.map fun x => (List.range N).map fun n => k.col x n) i = .ub := by
      simp [vget, hi]
    rw [hv]
    rfl

theorem lsmcUpdate_basis (e : EigenSolvers ℝ) (he : LeastSquaresSolver e.svdSolve) (k k' : BasisKind) (N : ℕ)
    (hN : N ≤ k.maxBasis) (hN' : N ≤ k'.maxBasis) :
    MC.lsmcUpdate (lsmcOf e k N .leastSquares) = MC.lsmcUpdate (lsmcOf e k' N .leastSquares) := by
  funext pay df prices exercise cash
  unfold MC.lsmcUpdate
  generalize hcol : MC.collect df (prices.zip (exercise.zip cash)) = col
  by_cases h0 : col.1 = []
  · simp [h0]
  · have hl : col.1.length = col.2.1.length := by rw [← hcol]; exact collect_lengths df _
    obtain ⟨rows, c, rows', c', h1, h1', h2, h2', h3⟩ :=
      C50_fitted e he k k' N hN hN' col.1 col.2.1 h0 hl
    have hne : ¬ (col.1.isEmpty = true) := by simpa using h0
    simp only [if_neg hne, lsmcOf, h1, h1']
    show (Regression.leastSquares.solve e (Mat.ofRows rows) col.2.1 >>= _) =
      (Regression.leastSquares.solve e (Mat.ofRows rows') col.2.1 >>= _)
    have hclen : c.length = N := by
      obtain ⟨r, c1, q, g1, g2, g3, -⟩ := C50_fit e he k N hN col.1 col.2.1 h0 hl
      rw [h1] at g1; cases g1; rw [h2] at g2; cases g2; exact g3
    have hclen' : c'.length = N := by
      obtain ⟨r, c1, q, g1, g2, g3, -⟩ := C50_fit e he k' N hN' col.1 col.2.1 h0 hl
      rw [h1'] at g1; cases g1; rw [h2'] at g2; cases g2; exact g3
    rw [h2, h2']
    refine exercise_congr _ _ _ _ _ _ (fun i => ?_) _ _
    have er : rows = col.1.map fun x => (List.range N).map fun n => k.col x n := by
      simp [BasisKind.generate, Nat.not_lt.2 hN] at h1; exact h1.symm
    have er' : rows' = col.1.map fun x => (List.range N).map fun n => k'.col x n := by
      simp [BasisKind.generate, Nat.not_lt.2 hN'] at h1'; exact h1'.symm
    rw [er, er', dot_design k N col.1 h0 c hclen, dot_design k' N col.1 h0 c' hclen']
    split
    · rename_i hi
      have := h3 i hi
      rw [er, er'] at this
      exact congrArg Res.ok this
    · rfl

/-- **C50, prices**: the price computed by the American pricer with least squares regression does not
depend on the basis, whatever the model, the payoff and the random numbers, by either simulation
method; nor does its outcome (exception, state). -/
theorem C50_price {σ : Type} (e : EigenSolvers ℝ) (he : LeastSquaresSolver e.svdSolve) (k k' : BasisKind) (N : ℕ)
    (hN : N ≤ k.maxBasis) (hN' : N ≤ k'.maxBasis) (bridge : Bool) (src : PathSource σ ℝ) (getR : Eff σ ℝ)
    (pay : ℝ → Res ℝ) (T : ℝ) (paths : ℕ) :
    MC.american bridge (lsmcOf e k N .leastSquares) src getR pay T paths =
      MC.american bridge (lsmcOf e k' N .leastSquares) src getR pay T paths := by
  have hu := lsmcUpdate_basis e he k k' N hN hN'
  have hs : MC.standardStep (lsmcOf e k N .leastSquares) = MC.standardStep (lsmcOf e k' N .leastSquares) := by
    funext pay df ps j cash
    simp only [MC.standardStep, hu]
  have hsl : MC.standardLoop (lsmcOf e k N .leastSquares) = MC.standardLoop (lsmcOf e k' N .leastSquares) := by
    funext pay df ps n cash
    induction n generalizing cash with
    | zero => rfl
    | succ n ih => simp only [MC.standardLoop, hs, ih]
  have hb : MC.bridgeStep (σ := σ) (lsmcOf e k N .leastSquares) = MC.bridgeStep (lsmcOf e k' N .leastSquares) := by
    funext src pay dt df j st
    simp only [MC.bridgeStep, hu]
  have hbl : MC.bridgeLoop (σ := σ) (lsmcOf e k N .leastSquares) = MC.bridgeLoop (lsmcOf e k' N .leastSquares) := by
    funext src pay dt df n st
    induction n generalizing st with
    | zero => rfl
    | succ n ih => simp only [MC.bridgeLoop, hb, ih]
  simp only [MC.american, MC.americanBridge, MC.americanStandard, MC.standardValue, hsl, hbl]

/-- The strategies of /repo meet the size conditions under which the properties of the American pricer
were proved (`Spec.Fits`). -/
theorem C50_fits (e : EigenSolvers ℝ) (he : LeastSquaresSolver e.svdSolve) (k : BasisKind) (N : ℕ)
    (hN : N ≤ k.maxBasis) : Spec.Fits (lsmcOf e k N .leastSquares) := by
  intro xs ys hl
  by_cases h0 : xs = []
  · subst h0
    obtain ⟨c, hc, -, -⟩ := he (Mat.ofRows []) ys (by simpa [Mat.ofRows] using hl.symm)
    refine ⟨[], c, by simp [lsmcOf, BasisKind.generate, Nat.not_lt.2 hN], ?_, rfl, by simp⟩
    simp only [lsmcOf, Regression.solve]
    rw [if_pos (by simpa [Mat.ofRows] using hl.symm), hc]
  · obtain ⟨rows, c, q, h1, h2, h3, -⟩ := C50_fit e he k N hN xs ys h0 hl
    have er : rows = xs.map fun x => (List.range N).map fun n => k.col x n := by
      simp [BasisKind.generate, Nat.not_lt.2 hN] at h1; exact h1.symm
    refine ⟨rows, c, h1, h2, by rw [er]; simp, ?_⟩
    rw [er, h3]
    simp

/-- The contract can be met, and two bases with three functions are within their limits. -/
example : ∃ e : EigenSolvers ℝ, LeastSquaresSolver e.svdSolve ∧ DefiniteSolver e.ldltSolve ∧
    3 ≤ BasisKind.maxBasis .monomial ∧ 3 ≤ BasisKind.maxBasis .laguerre := by
  obtain ⟨f, hf⟩ := leastSquares_exists
  obtain ⟨g, hg⟩ := definite_exists
  exact ⟨⟨f, g⟩, hf, hg, by simp [BasisKind.maxBasis, INT_MAX], by simp [BasisKind.maxBasis]⟩

/-! ## C51 -/

theorem softThreshold_real (l b : ℝ) :
    Regression.softThreshold l b = max 0 (b - l) - max 0 (-b - l) := by
  simp [Regression.softThreshold]

/-- The soft threshold minimises the one-dimensional lasso objective. -/
theorem softThreshold_min (l b z : ℝ) (hl : 0 ≤ l) :
    1 / 2 * (Regression.softThreshold l b - b) ^ 2 + l * |Regression.softThreshold l b| ≤
      1 / 2 * (z - b) ^ 2 + l * |z| := by
  rw [softThreshold_real]
  rcases le_total b (-l) with h1 | h1
  · rw [max_eq_left (by linarith), max_eq_right (by linarith),
      show (0 : ℝ) - (-b - l) = b + l by ring, abs_of_nonpos (by linarith)]
    have h2 := mul_le_mul_of_nonneg_left (neg_abs_le z) hl
    nlinarith [sq_nonneg (z - b - l)]
  · rcases le_total b l with h2 | h2
    · rw [max_eq_left (by linarith), max_eq_left (by linarith), sub_zero, abs_zero]
      have : b * z ≤ l * |z| := by
        calc b * z ≤ |b * z| := le_abs_self _
          _ = |b| * |z| := abs_mul _ _
          _ ≤ l * |z| := mul_le_mul_of_nonneg_right (abs_le.2 ⟨by linarith, h2⟩) (abs_nonneg z)
      nlinarith [sq_nonneg z]
    · rw [max_eq_right (by linarith), max_eq_left (by linarith), sub_zero, abs_of_nonneg (by linarith)]
      have h3 := mul_le_mul_of_nonneg_left (le_abs_self z) hl
      nlinarith [sq_nonneg (z - b + l)]

/-- **C51, threshold**: for every matrix, target and `lambda >= 0` the result is the least squares
solution `b` shrunk entry by entry: no entry grows in magnitude or changes its sign, exactly the
entries of magnitude at most `lambda` become 0, and the others move by `lambda`. -/
theorem C51_threshold (e : EigenSolvers ℝ) (he : LeastSquaresSolver e.svdSolve) (l : ℝ) (hl : 0 ≤ l)
    (A : Mat ℝ) (y : List ℝ) (hy : y.length = A.rows) :
    ∃ x b, (Regression.lasso l).solve e A y = .ok x ∧ x.length = A.cols ∧
      (∀ z, squaredError A y (entry b) ≤ squaredError A y z) ∧
      ∀ j < A.cols, |entry x j| ≤ |entry b j| ∧ 0 ≤ entry x j * entry b j ∧
        (entry x j = 0 ↔ |entry b j| ≤ l) ∧ (l ≤ |entry b j| → |entry x j - entry b j| = l) := by
  obtain ⟨b, hb, hlen, hmin⟩ := he A y hy
  refine ⟨b.map (Regression.softThreshold l), b, ?_, by simp [hlen], hmin, fun j hj => ?_⟩
  · rw [Regression.solve, if_pos hy, hb]; rfl
  · have : entry (b.map (Regression.softThreshold l)) j = Regression.softThreshold l (entry b j) := by
      simp [entry, List.getD, hlen, hj]
    rw [this, softThreshold_real]
    generalize entry b j = b
    rcases le_total b (-l) with h1 | h1
    · rw [max_eq_left (by linarith), max_eq_right (by linarith),
        show (0 : ℝ) - (-b - l) = b + l by ring, abs_of_nonpos (by linarith), abs_of_nonpos (a := b) (by linarith)]
      exact ⟨by linarith, by nlinarith, ⟨fun h => by linarith, fun h => by linarith⟩,
        fun _ => by rw [show b + l - b = l by ring, abs_of_nonneg hl]⟩
    · rcases le_total b l with h2 | h2
      · rw [max_eq_left (by linarith), max_eq_left (by linarith), sub_zero, abs_zero]
        exact ⟨abs_nonneg _, by simp, ⟨fun _ => abs_le.2 ⟨by linarith, h2⟩, fun _ => rfl⟩,
          fun h => by rw [zero_sub, abs_neg]; exact le_antisymm (abs_le.2 ⟨by linarith, h2⟩) h⟩
      · rw [max_eq_right (by linarith), max_eq_left (by linarith), sub_zero, abs_of_nonneg (by linarith),
          abs_of_nonneg (a := b) (by linarith)]
        exact ⟨by linarith, by nlinarith, ⟨fun h => by linarith, fun h => by linarith⟩,
          fun _ => by rw [show b - l - b = -l by ring, abs_neg, abs_of_nonneg hl]⟩

/-- **C51 is false of this code**: for the 1x1 matrix 2, the target 2 and `lambda = 1` the result is 0,
but 3/4 has a smaller lasso objective. -/
theorem C51_fails (e : EigenSolvers ℝ) (he : LeastSquaresSolver e.svdSolve) :
    ∃ x, (Regression.lasso 1).solve e ⟨1, 1, fun _ _ => 2⟩ [2] = .ok x ∧
      lassoObjective 1 ⟨1, 1, fun _ _ => 2⟩ [2] (fun _ => 3 / 4) <
        lassoObjective 1 ⟨1, 1, fun _ _ => 2⟩ [2] (entry x) := by
  obtain ⟨b, hb, hlen, hmin⟩ := he ⟨1, 1, fun _ _ => 2⟩ [2] rfl
  obtain ⟨a, rfl⟩ : ∃ a, b = [a] := List.length_eq_one_iff.1 hlen
  have h := hmin (fun _ => 1)
  simp [squaredError, fitted, entry] at h
  have ha : a = 1 := by nlinarith [sq_nonneg (2 * a - 2)]
  subst ha
  refine ⟨[Regression.softThreshold 1 1], ?_, ?_⟩
  · rw [Regression.solve, if_pos (by rfl), hb]; rfl
  · rw [softThreshold_real]
    norm_num [lassoObjective, squaredError, fitted, entry]

/-- **C51, what holds**: the result minimises the lasso objective if the columns of `A` are orthonormal
or if `lambda = 0`.  Missing: general matrices (`C51_fails`). -/
theorem C51_partial (e : EigenSolvers ℝ) (he : LeastSquaresSolver e.svdSolve) (l : ℝ) (hl : 0 ≤ l)
    (A : Mat ℝ) (y : List ℝ) (hy : y.length = A.rows) (h : OrthonormalColumns A ∨ l = 0) :
    ∃ x, (Regression.lasso l).solve e A y = .ok x ∧ x.length = A.cols ∧
      ∀ z, lassoObjective l A y (entry x) ≤ lassoObjective l A y z := by
  obtain ⟨b, hb, hlen, hmin⟩ := he A y hy
  have hx : ∀ j < A.cols, entry (b.map (Regression.softThreshold l)) j = Regression.softThreshold l (entry b j) := by
    intro j hj
    simp [entry, List.getD, hlen, hj]
  refine ⟨b.map (Regression.softThreshold l), ?_, by simp [hlen], fun z => ?_⟩
  · rw [Regression.solve, if_pos hy, hb]; rfl
  rcases h with h | rfl
  · have hsq : ∀ v : ℕ → ℝ, ∑ i ∈ range A.rows, fitted A v i ^ 2 = ∑ j ∈ range A.cols, v j ^ 2 := by
      intro v
      have : ∀ i, fitted A v i ^ 2 = ∑ p ∈ range A.cols, ∑ q ∈ range A.cols, v p * v q * (A.coeff i p * A.coeff i q) := by
        intro i
        rw [sq, fitted, sum_mul_sum]
        exact sum_congr rfl fun p _ => sum_congr rfl fun q _ => by ring
      simp only [this]
      rw [sum_comm]
      refine sum_congr rfl fun p hp => ?_
      rw [sum_comm, sum_eq_single p]
      · rw [← mul_sum, h p (mem_range.1 hp) p (mem_range.1 hp), if_pos rfl]; ring
      · intro q hq hne
        rw [← mul_sum, h p (mem_range.1 hp) q (mem_range.1 hq), if_neg hne.symm, mul_zero]
      · intro hn; exact absurd hp hn
    simp only [lassoObjective, residual_split A y _ hmin z, residual_split A y _ hmin (entry (b.map _)), hsq]
    have : ∑ j ∈ range A.cols, (1 / 2 * (entry (b.map (Regression.softThreshold l)) j - entry b j) ^ 2
          + l * |entry (b.map (Regression.softThreshold l)) j|) ≤
        ∑ j ∈ range A.cols, (1 / 2 * (z j - entry b j) ^ 2 + l * |z j|) :=
      sum_le_sum fun j hj => by
        rw [hx j (mem_range.1 hj)]
        exact softThreshold_min l (entry b j) (z j) hl
    rw [sum_add_distrib, sum_add_distrib, ← mul_sum, ← mul_sum, ← mul_sum, ← mul_sum] at this
    linarith
  · have : squaredError A y (entry (b.map (Regression.softThreshold 0))) = squaredError A y (entry b) := by
      refine residual_congr A y _ _ fun j hj => ?_
      rw [hx j hj, softThreshold_real]
      rcases le_total (entry b j) 0 with h | h
      · rw [max_eq_left (by linarith), max_eq_right (by linarith)]; ring
      · rw [max_eq_right (by linarith), max_eq_left (by linarith)]; ring
    simp only [lassoObjective, this, zero_mul, add_zero]
    linarith [hmin z]

/-- A matrix with orthonormal columns. -/
example : OrthonormalColumns ⟨3, 2, fun i j => if i = j then 1 else 0⟩ := by
  intro p hp q hq
  simp only at hp hq
  interval_cases p <;> interval_cases q <;> simp [sum_range_succ]

/-! ## C52 -/

/-- **C52, constructors**, in any arithmetic: ridge and lasso throw exactly for `lambda < 0`. -/
theorem C52_constructor {F : Type} [Fl F] (l : F) :
    ((Regression.mkRidge l).Throws .invalidArgument ↔ Fl.lt l (lit 0) = true) ∧
    (Fl.lt l (lit 0) = false → Regression.mkRidge l = .ok (.ridge l)) ∧
    ((Regression.mkLasso l).Throws .invalidArgument ↔ Fl.lt l (lit 0) = true) ∧
    (Fl.lt l (lit 0) = false → Regression.mkLasso l = .ok (.lasso l)) := by
  unfold Regression.mkRidge Regression.mkLasso
  cases h : Fl.lt l (lit 0) <;> simp [Res.Throws, invalidArg]

theorem sumN_real (n : ℕ) (f : ℕ → ℝ) : Regression.sumN n f = ∑ i ∈ range n, f i := by
  unfold Regression.sumN
  induction n with
  | zero => simp
  | succ n ih => rw [List.range_succ, List.foldl_append, ih, sum_range_succ]; rfl

theorem gram_form (l : ℝ) (A : Mat ℝ) (v w : ℕ → ℝ) :
    ∑ p ∈ range A.cols, v p * fitted (Regression.gram l A) w p =
      ∑ i ∈ range A.rows, fitted A v i * fitted A w i + l * ∑ j ∈ range A.cols, v j * w j := by
  have h1 : ∀ p ∈ range A.cols, v p * fitted (Regression.gram l A) w p =
      (∑ i ∈ range A.rows, v p * A.coeff i p * fitted A w i) + l * (v p * w p) := by
    intro p hp
    simp only [fitted, Regression.gram, sumN_real, add_mul, sum_add_distrib, mul_add, Fl.lit_real]
    congr 1
    · rw [mul_sum]
      simp only [sum_mul, mul_sum]
      rw [sum_comm]
      exact sum_congr rfl fun i _ => sum_congr rfl fun q _ => by ring
    · rw [sum_eq_single p]
      · simp; ring
      · intro q _ hne; simp [hne.symm]
      · intro hn; exact absurd hp hn
  rw [sum_congr rfl h1, sum_add_distrib, ← mul_sum, sum_comm]
  congr 1
  refine sum_congr rfl fun i _ => ?_
  rw [← sum_mul, fitted]
  congr 1
  exact sum_congr rfl fun p _ => by ring

theorem gram_posDef (l : ℝ) (hl : 0 < l) (A : Mat ℝ) : PositiveDefinite (Regression.gram l A) where
  square := rfl
  symm i j := by
    simp only [Regression.gram, sumN_real]
    congr 1
    · exact sum_congr rfl fun k _ => mul_comm _ _
    · by_cases h : i = j
      · simp [h]
      · simp [h, Ne.symm h]
  pos v hv := by
    obtain ⟨j, hj, hvj⟩ := hv
    rw [show (Regression.gram l A).rows = A.cols from rfl, gram_form]
    have h1 : 0 ≤ ∑ i ∈ range A.rows, fitted A v i * fitted A v i := sum_nonneg fun _ _ => mul_self_nonneg _
    have h2 : 0 < ∑ j ∈ range A.cols, v j * v j :=
      sum_pos' (fun _ _ => mul_self_nonneg _) ⟨j, mem_range.2 hj, mul_self_pos.2 hvj⟩
    have := mul_pos hl h2
    linarith

/-- The ridge objective around a solution of the regularised normal equations. -/
theorem ridge_split (l : ℝ) (A : Mat ℝ) (y : List ℝ) (x : List ℝ)
    (hx : Solves (Regression.gram l A) (Regression.moment A y) x) (z : ℕ → ℝ) :
    ridgeObjective l A y z = ridgeObjective l A y (entry x)
      + ∑ i ∈ range A.rows, fitted A (fun j => z j - entry x j) i ^ 2
      + l * ∑ j ∈ range A.cols, (z j - entry x j) ^ 2 := by
  set d : ℕ → ℝ := fun j => z j - entry x j with hd
  have hz : squaredError A y z = squaredError A y (fun j => entry x j + 1 * d j) :=
    residual_congr A y _ _ fun j _ => by simp [hd]
  have hn : ∑ i ∈ range A.rows, fitted A d i * fitted A (entry x) i + l * ∑ j ∈ range A.cols, d j * entry x j
      = ∑ i ∈ range A.rows, fitted A d i * entry y i := by
    rw [← gram_form]
    have h1 : ∀ p ∈ range A.cols, d p * fitted (Regression.gram l A) (entry x) p
        = ∑ i ∈ range A.rows, d p * A.coeff i p * entry y i := by
      intro p hp
      have h2 := hx.2.2 p (mem_range.1 hp)
      have h3 : entry (Regression.moment A y) p = ∑ i ∈ range A.rows, A.coeff i p * entry y i := by
        simp [entry, Regression.moment, List.getD, mem_range.1 hp, sumN_real]
      rw [show fitted (Regression.gram l A) (entry x) p = _ from h2, h3, mul_sum]
      exact sum_congr rfl fun i _ => by ring
    rw [sum_congr rfl h1, sum_comm]
    refine sum_congr rfl fun i _ => ?_
    rw [← sum_mul, fitted]
    congr 1
    exact sum_congr rfl fun p _ => by ring
  have hsq : ∑ j ∈ range A.cols, z j ^ 2 = ∑ j ∈ range A.cols, entry x j ^ 2
      + 2 * ∑ j ∈ range A.cols, d j * entry x j + ∑ j ∈ range A.cols, d j ^ 2 := by
    rw [mul_sum, ← sum_add_distrib, ← sum_add_distrib]
    exact sum_congr rfl fun j _ => by simp only [hd]; ring
  have hcross : ∑ i ∈ range A.rows, (fitted A (entry x) i - entry y i) * fitted A d i
      = ∑ i ∈ range A.rows, fitted A d i * fitted A (entry x) i - ∑ i ∈ range A.rows, fitted A d i * entry y i := by
    rw [← sum_sub_distrib]
    exact sum_congr rfl fun i _ => by ring
  rw [ridgeObjective, hz, residual_add, hsq, hcross, ridgeObjective]
  linear_combination 2 * hn

/-- **C52**: for every matrix, target and `lambda > 0`, ridge regression returns, and what it returns is
the only minimiser of the ridge objective. -/
theorem C52_minimises (e : EigenSolvers ℝ) (he : DefiniteSolver e.ldltSolve) (l : ℝ) (hl : 0 < l)
    (A : Mat ℝ) (y : List ℝ) (hy : y.length = A.rows) :
    ∃ x, (Regression.ridge l).solve e A y = .ok x ∧ x.length = A.cols ∧
      (∀ z, ridgeObjective l A y (entry x) ≤ ridgeObjective l A y z) ∧
      ∀ z, ridgeObjective l A y z ≤ ridgeObjective l A y (entry x) → ∀ j < A.cols, z j = entry x j := by
  obtain ⟨x, hx, hs⟩ := he (Regression.gram l A) (Regression.moment A y) (gram_posDef l hl A)
    (by simp [Regression.moment, Regression.gram])
  refine ⟨x, by rw [Regression.solve, if_pos hy, hx], hs.1, fun z => ?_, fun z hz j hj => ?_⟩
  · rw [ridge_split l A y x hs z]
    have h1 : 0 ≤ ∑ i ∈ range A.rows, fitted A (fun j => z j - entry x j) i ^ 2 := sum_nonneg fun _ _ => sq_nonneg _
    have h2 : 0 ≤ ∑ j ∈ range A.cols, (z j - entry x j) ^ 2 := sum_nonneg fun _ _ => sq_nonneg _
    have := mul_nonneg hl.le h2
    linarith
  · rw [ridge_split l A y x hs z] at hz
    have h1 : 0 ≤ ∑ i ∈ range A.rows, fitted A (fun j => z j - entry x j) i ^ 2 := sum_nonneg fun _ _ => sq_nonneg _
    have h2 : 0 ≤ ∑ j ∈ range A.cols, (z j - entry x j) ^ 2 := sum_nonneg fun _ _ => sq_nonneg _
    have h3 : ∑ j ∈ range A.cols, (z j - entry x j) ^ 2 = 0 := by
      by_contra hne
      have := mul_pos hl (lt_of_le_of_ne h2 (Ne.symm hne))
      linarith
    have := (sum_eq_zero_iff_of_nonneg (fun i _ => sq_nonneg _)).1 h3 j (mem_range.2 hj)
    exact sub_eq_zero.1 (pow_eq_zero_iff (by norm_num) |>.1 this)

/-- The pricer's size conditions hold for ridge regression with `lambda > 0` as well. -/
theorem C52_fits (e : EigenSolvers ℝ) (he : DefiniteSolver e.ldltSolve) (l : ℝ) (hl : 0 < l) (k : BasisKind)
    (N : ℕ) (hN : N ≤ k.maxBasis) : Spec.Fits (lsmcOf e k N (.ridge l)) := by
  intro xs ys hlen
  obtain ⟨c, hc, hcl, -⟩ := C52_minimises e he l hl (design k N xs) ys (by rw [design_rows, hlen])
  refine ⟨xs.map fun x => (List.range N).map fun n => k.col x n, c,
    by simp [lsmcOf, BasisKind.generate, Nat.not_lt.2 hN], hc, by simp, ?_⟩
  intro row hrow
  have h0 : xs ≠ [] := by rintro rfl; simp at hrow
  rw [hcl, design_cols k N xs h0]
  obtain ⟨x, -, rfl⟩ := List.mem_map.1 hrow
  simp

/-- One basis function, one point: ridge regression of the target 2 on the entry 1 with `lambda = 1`
returns 1. -/
example (e : EigenSolvers ℝ) (he : DefiniteSolver e.ldltSolve) :
    (Regression.ridge 1).solve e ⟨1, 1, fun _ _ => 1⟩ [2] = .ok [1] := by
  obtain ⟨x, hx, hl, -, hu⟩ := C52_minimises e he 1 one_pos ⟨1, 1, fun _ _ => 1⟩ [2] rfl
  obtain ⟨a, rfl⟩ : ∃ a, x = [a] := List.length_eq_one_iff.1 hl
  have := hu (fun _ => 1) (by
    simp [ridgeObjective, squaredError, fitted, entry]
    nlinarith [sq_nonneg (a - 1)]) 0 (by simp)
  simp [entry] at this
  rw [hx, ← this]

end Verif
