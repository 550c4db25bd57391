import Verif.Lemmas.QuantileCentral
import Mathlib.Analysis.Complex.ExponentialBounds

/-!
# Accuracy of the tail branch of the normal quantile function

In the tail the code returns `-p (log (-log u))` for a polynomial `p` of degree eight.  With
`r = log (-log u)`, that is `u = exp (-exp r)`, and `K = log p' - p²/2 - r + exp r`, the branch is
exact when `K` is constantly `log (2π) / 2`.  `K' = p''/p' - p p' - 1 + exp r` is compared with the
certificate `Q`, the constant is found at the junction with the central branch, and beyond
`r = 3.15` both the argument and the normal tail are below the claimed error.
-/

open PolyCheck ProbabilityTheory

namespace Verif.Tail

/-- The polynomial of the tail branch. -/
def C : List ℚ := [3374754822726147/10000000000000000, 9761690190917186/10000000000000000,
  1607979714918209/10000000000000000, 276438810333863/10000000000000000, 38405729373609/10000000000000000,
  3951896511919/10000000000000000, 321767881768/10000000000000000, 2888167364/10000000000000000,
  3960315187/10000000000000000]
def C1 : List ℚ := der C
def C2 : List ℚ := der C1

/-- The exponential series to degree thirteen. -/
def E14 : List ℚ := [1, 1, 1/2, 1/6, 1/24, 1/120, 1/720, 1/5040, 1/40320, 1/362880, 1/3628800, 1/39916800, 1/479001600, 1/6227020800]
/-- `exp (r / 2 - 1)`, approximately. -/
def T : List ℚ := scale (1/2) (shift (-1) E14)
/-- `exp r`, approximately. -/
def X : List ℚ := smul ((363916618873/133877442384) ^ 2) (mul T T)

/-- Certificate, in `r - 2`. -/
def Q2 : List ℚ := [-1111239/1000000000000000, 10056233/250000000000000, 55619899/1000000000000000,
   -65860667/200000000000000, -76176867/250000000000000, 671231829/1000000000000000,
   507865033/1000000000000000, -425928003/1000000000000000, -83178731/250000000000000,
   6277433/250000000000000, 81272021/1000000000000000, 22869329/1000000000000000,
   1633143/500000000000000]
/-- Certificate: an approximation of `K'`. -/
def Q : List ℚ := shift (-2) Q2

def primitive (i : ℕ) : List ℚ → List ℚ
  | [] => []
  | c :: p => c / (i + 1) :: primitive (i + 1) p
/-- The integral of the certificate. -/
def W : List ℚ := shift (-2) (-751839/1000000000000000 :: primitive 0 Q2)

/-- `K' * C1` with the exponential replaced by its approximation. -/
def A : List ℚ := add C2 (mul C1 (sub X (add (mul C C1) [1])))

set_option maxRecDepth 100000

theorem chk_up : posOn 12 (sub (smul (1/100000000000) C1) (sub A (mul Q C1))) (9265/10000) (22235/10000) = true := by
  decide +kernel
theorem chk_lo : posOn 12 (sub (smul (1/100000000000) C1) (sub (mul Q C1) A)) (9265/10000) (22235/10000) = true := by
  decide +kernel
theorem chk_W : (sub (der W) Q).all (· = 0) = true := by decide +kernel
theorem chk_Wup : posOn 12 (sub [14/10000000000] W) (9265/10000) (22235/10000) = true := by decide +kernel
theorem chk_Wlo : posOn 12 (add [14/10000000000] W) (9265/10000) (22235/10000) = true := by decide +kernel
theorem chk_C : C.all (fun c => decide (0 ≤ c)) = true := by decide +kernel
theorem chk_C1 : C1.all (fun c => decide (0 ≤ c)) = true := by decide +kernel

theorem tail_eq (r : ℝ) : moroTailPoly r = ev C r := by
  simp only [moroTailPoly, C, ev_cons, ev_nil, Fl.lit_real]
  push_cast
  ring

theorem C1_pos {r : ℝ} (h : 0 ≤ r) : 9/10 ≤ ev C1 r := by
  have h1 := (ev_mono C1 chk_C1 le_rfl h).2
  have h2 : (9/10 : ℚ) ≤ evQ C1 0 := by decide +kernel
  have h3 : ((9/10 : ℚ) : ℝ) ≤ ev C1 ((0 : ℚ) : ℝ) := by rw [ev_rat]; exact_mod_cast h2
  push_cast at h3
  linarith

theorem ev_W' (r : ℝ) : ev (der W) r = ev Q r := by
  have := ev_all_zero _ chk_W r
  rw [ev_sub] at this
  linarith

theorem W_bound {r : ℝ} (h0 : 9265/10000 ≤ r) (h1 : r ≤ 315/100) : |ev W r| ≤ 14/10000000000 := by
  have u := posOn_sound _ _ _ _ (by norm_num) chk_Wup r (by push_cast; linarith) (by push_cast; linarith)
  have l := posOn_sound _ _ _ _ (by norm_num) chk_Wlo r (by push_cast; linarith) (by push_cast; linarith)
  simp only [ev_sub, ev_add, ev_cons, ev_nil] at u l
  push_cast at u l
  rw [abs_le]
  constructor <;> linarith

theorem series_approx {s : ℝ} (h : |s| ≤ 6/10) : |Real.exp s - ev E14 s| ≤ 1/100000000000000 := by
  have hb := Real.exp_bound (h.trans (by norm_num)) (n := 14) (by norm_num)
  have e : ∑ m ∈ Finset.range 14, s ^ m / (m.factorial : ℝ) = ev E14 s := by
    simp only [Finset.sum_range_succ, Finset.sum_range_zero, Nat.factorial, E14, ev_cons, ev_nil]
    push_cast
    ring
  rw [e] at hb
  refine hb.trans ?_
  have hp : |s| ^ 14 ≤ (6/10) ^ 14 := by gcongr
  refine (mul_le_mul_of_nonneg_right hp (by positivity)).trans ?_
  simp only [Nat.factorial]
  norm_num

theorem exp_approx {r : ℝ} (h0 : 9265/10000 ≤ r) (h1 : r ≤ 315/100) :
    |Real.exp r - ev X r| ≤ 1/1000000000000 := by
  have hs : |(-1 + 1/2 * r)| ≤ 6/10 := by rw [abs_le]; constructor <;> linarith
  have a := abs_le.1 (series_approx hs)
  have eT : ev T r = ev E14 (-1 + 1/2 * r) := by
    rw [T, ev_scale, ev_shift]; push_cast; rfl
  rw [← eT] at a
  have e1 : Real.exp r = Real.exp 1 ^ 2 * Real.exp (-1 + 1/2 * r) ^ 2 := by
    rw [← Real.exp_nat_mul, ← Real.exp_nat_mul, ← Real.exp_add]; congr 1; push_cast; ring
  have eX : ev X r = (363916618873/133877442384) ^ 2 * ev T r ^ 2 := by
    rw [X, ev_smul, ev_mul]; push_cast; ring
  have b := abs_le.1 Real.exp_one_near_20
  have hS : Real.exp (-1 + 1/2 * r) ≤ 2 := by
    have : Real.exp (-1 + 1/2 * r) ≤ Real.exp (6/10) := Real.exp_le_exp.2 (abs_le.1 hs).2
    have h2 : Real.exp (6/10) ≤ 2 := by
      have := abs_le.1 (series_approx (s := 6/10) (by norm_num))
      have h3 : evQ E14 (6/10) ≤ 19/10 := by decide +kernel
      have h4 : ev E14 ((6/10 : ℚ) : ℝ) ≤ ((19/10 : ℚ) : ℝ) := by rw [ev_rat]; exact_mod_cast h3
      push_cast at h4
      linarith
    linarith
  have hS0 := Real.exp_pos (-1 + 1/2 * r)
  generalize Real.exp (-1 + 1/2 * r) = S at *
  generalize ev T r = t at *
  generalize Real.exp 1 = e at *
  rw [e1, eX]
  have he : e ≤ 3 := by
    have : (363916618873/133877442384 : ℝ) + 1 / 10 ^ 20 ≤ 3 := by norm_num
    linarith
  have he0 : 2 ≤ e := by
    have : 2 ≤ (363916618873/133877442384 : ℝ) - 1 / 10 ^ 20 := by norm_num
    linarith
  have ht : |S ^ 2 - t ^ 2| ≤ 5/100000000000000 := by
    rw [show S ^ 2 - t ^ 2 = (S - t) * (S + t) by ring, abs_mul]
    have h1 : |S - t| ≤ 1/100000000000000 := abs_le.2 a
    have h2 : |S + t| ≤ 5 := by rw [abs_le]; constructor <;> linarith
    calc |S - t| * |S + t| ≤ 1/100000000000000 * 5 := mul_le_mul h1 h2 (abs_nonneg _) (by norm_num)
      _ = _ := by norm_num
  have hc : |e ^ 2 - (363916618873/133877442384) ^ 2| ≤ 1 / 10 ^ 19 := by
    rw [show e ^ 2 - (363916618873/133877442384 : ℝ) ^ 2 =
      (e - 363916618873/133877442384) * (e + 363916618873/133877442384) by ring, abs_mul]
    have h2 : |e + 363916618873/133877442384| ≤ 6 := by
      have : (363916618873/133877442384 : ℝ) ≤ 3 := by norm_num
      have : (0 : ℝ) ≤ 363916618873/133877442384 := by norm_num
      rw [abs_le]; constructor <;> linarith
    calc |e - 363916618873/133877442384| * |e + 363916618873/133877442384| ≤ 1 / 10 ^ 20 * 6 :=
          mul_le_mul (abs_le.2 b) h2 (abs_nonneg _) (by norm_num)
      _ ≤ _ := by norm_num
  have ht2 : t ^ 2 ≤ 9 := by nlinarith
  have ht0 : 0 ≤ t ^ 2 := sq_nonneg t
  rw [show e ^ 2 * S ^ 2 - (363916618873/133877442384 : ℝ) ^ 2 * t ^ 2 =
    e ^ 2 * (S ^ 2 - t ^ 2) + (e ^ 2 - (363916618873/133877442384) ^ 2) * t ^ 2 by ring]
  refine (abs_add_le _ _).trans ?_
  rw [abs_mul, abs_mul, abs_of_nonneg (sq_nonneg e), abs_of_nonneg ht0]
  have he2 : e ^ 2 ≤ 9 := by nlinarith
  have m1 : e ^ 2 * |S ^ 2 - t ^ 2| ≤ 9 * (5/100000000000000) :=
    mul_le_mul he2 ht (abs_nonneg _) (by norm_num)
  have m2 : |e ^ 2 - (363916618873/133877442384) ^ 2| * t ^ 2 ≤ 1 / 10 ^ 19 * 9 :=
    mul_le_mul hc ht2 ht0 (by norm_num)
  refine (add_le_add m1 m2).trans ?_
  norm_num

theorem residual {r : ℝ} (h0 : 9265/10000 ≤ r) (h1 : r ≤ 315/100) :
    |ev C2 r / ev C1 r - ev C r * ev C1 r - 1 + Real.exp r - ev Q r| ≤ 2/100000000000 := by
  have u := posOn_sound _ _ _ _ (by norm_num) chk_up r (by push_cast; linarith) (by push_cast; linarith)
  have l := posOn_sound _ _ _ _ (by norm_num) chk_lo r (by push_cast; linarith) (by push_cast; linarith)
  have e := abs_le.1 (exp_approx h0 h1)
  have hp : 0 < ev C1 r := lt_of_lt_of_le (by norm_num) (C1_pos (by linarith))
  simp only [A, ev_sub, ev_smul, ev_mul, ev_add, ev_cons, ev_nil] at u l
  push_cast at u l
  have d : ev C2 r = ev C2 r / ev C1 r * ev C1 r := (div_mul_cancel₀ _ hp.ne').symm
  rw [d] at u l
  have u' : 0 ≤ (1/100000000000 - (ev C2 r / ev C1 r + (ev X r - (ev C r * ev C1 r + 1)) - ev Q r)) * ev C1 r := by
    linarith
  have l' : 0 ≤ (1/100000000000 - (ev Q r - (ev C2 r / ev C1 r + (ev X r - (ev C r * ev C1 r + 1))))) * ev C1 r := by
    linarith
  have u2 := nonneg_of_mul_nonneg_left u' hp
  have l2 := nonneg_of_mul_nonneg_left l' hp
  rw [abs_le]
  constructor <;> linarith

/-- The logarithm of the slope of the branch less half its square, in the variable `r`. -/
noncomputable def K (r : ℝ) : ℝ := Real.log (ev C1 r) - ev C r ^ 2 / 2 - r + Real.exp r

theorem hasDerivAt_K {r : ℝ} (h : 0 ≤ r) :
    HasDerivAt K (ev C2 r / ev C1 r - ev C r * ev C1 r - 1 + Real.exp r) r := by
  have hp : ev C1 r ≠ 0 := (lt_of_lt_of_le (by norm_num) (C1_pos h)).ne'
  refine (((((hasDerivAt_ev C1 r).log hp).fun_sub (((hasDerivAt_ev C r).fun_pow 2).div_const 2)).fun_sub
    (hasDerivAt_id' r)).fun_add (Real.hasDerivAt_exp r)).congr_deriv ?_
  simp only [C2, C1]
  push_cast
  ring

/-! ## The junction -/

/-- The value of `log (-log u)` at the junction `u = 0.08`. -/
noncomputable def r0 : ℝ := Real.log (-Real.log (8/100))

theorem neg_log_eq : -Real.log (8/100) = Real.log (25/2) := by rw [← Real.log_inv]; norm_num

theorem exp_bracket (x : ℚ) (h0 : 0 ≤ x) (h1 : x ≤ 1) : |Real.exp x - ∑ m ∈ Finset.range 18, (x : ℝ) ^ m / (m.factorial : ℝ)| ≤
    1/5000000000000000 := by
  have h0' : (0 : ℝ) ≤ x := by exact_mod_cast h0
  have h1' : (x : ℝ) ≤ 1 := by exact_mod_cast h1
  refine (Real.exp_bound (by rw [abs_of_nonneg h0']; exact h1') (n := 18) (by norm_num)).trans ?_
  have : |(x : ℝ)| ^ 18 ≤ 1 := pow_le_one₀ (abs_nonneg _) (by rw [abs_of_nonneg h0']; exact h1')
  refine (mul_le_mul_of_nonneg_right this (by positivity)).trans ?_
  simp only [Nat.factorial]
  norm_num

theorem ell_lo : 25257286443082/10000000000000 ≤ Real.log (25/2) := by
  rw [Real.le_log_iff_exp_le (by norm_num)]
  have e : Real.exp (25257286443082/10000000000000) = Real.exp ((25257286443082/40000000000000 : ℚ) : ℝ) ^ 4 := by
    rw [← Real.exp_nat_mul]; push_cast; norm_num
  have h := (abs_le.1 (exp_bracket (25257286443082/40000000000000) (by norm_num) (by norm_num))).2
  have h2 : Real.exp ((25257286443082/40000000000000 : ℚ) : ℝ) ≤ 18803015465431715/10000000000000000 := by
    refine (sub_le_iff_le_add.1 h).trans ?_
    simp only [Finset.sum_range_succ, Finset.sum_range_zero, Nat.factorial]
    norm_num
  rw [e]
  exact (pow_le_pow_left₀ (Real.exp_pos _).le h2 4).trans (by norm_num)

theorem ell_hi : Real.log (25/2) ≤ 25257286443083/10000000000000 := by
  rw [Real.log_le_iff_le_exp (by norm_num)]
  have e : Real.exp (25257286443083/10000000000000) = Real.exp ((25257286443083/40000000000000 : ℚ) : ℝ) ^ 4 := by
    rw [← Real.exp_nat_mul]; push_cast; norm_num
  have h := (abs_le.1 (exp_bracket (25257286443083/40000000000000) (by norm_num) (by norm_num))).1
  have h2 : (18803015465432170/10000000000000000 : ℝ) ≤ Real.exp ((25257286443083/40000000000000 : ℚ) : ℝ) := by
    refine le_trans ?_ (neg_le_sub_iff_le_add.1 h |> sub_le_iff_le_add.2)
    simp only [Finset.sum_range_succ, Finset.sum_range_zero, Nat.factorial]
    norm_num
  rw [e]
  exact le_trans (by norm_num) (pow_le_pow_left₀ (by norm_num) h2 4)

theorem ell_pos : 0 < Real.log (25/2) := Real.log_pos (by norm_num)

theorem r0_lo : 9265295931016/10000000000000 ≤ r0 := by
  rw [r0, neg_log_eq, Real.le_log_iff_exp_le ell_pos]
  refine le_trans ?_ ell_lo
  have h := (abs_le.1 (exp_bracket (9265295931016/10000000000000) (by norm_num) (by norm_num))).2
  have e : Real.exp (9265295931016/10000000000000) = Real.exp ((9265295931016/10000000000000 : ℚ) : ℝ) := by
    push_cast; rfl
  rw [e]
  refine (sub_le_iff_le_add.1 h).trans ?_
  simp only [Finset.sum_range_succ, Finset.sum_range_zero, Nat.factorial]
  norm_num

theorem r0_hi : r0 ≤ 9265295931018/10000000000000 := by
  rw [r0, neg_log_eq, Real.log_le_iff_le_exp ell_pos]
  refine ell_hi.trans ?_
  have h := (abs_le.1 (exp_bracket (9265295931018/10000000000000) (by norm_num) (by norm_num))).1
  have e : Real.exp (9265295931018/10000000000000) = Real.exp ((9265295931018/10000000000000 : ℚ) : ℝ) := by
    push_cast; rfl
  rw [e]
  refine le_trans ?_ (neg_le_sub_iff_le_add.1 h |> sub_le_iff_le_add.2)
  simp only [Finset.sum_range_succ, Finset.sum_range_zero, Nat.factorial]
  norm_num

theorem exp_r0_eq : Real.exp r0 = Real.log (25/2) := by rw [r0, neg_log_eq, Real.exp_log ell_pos]

theorem exp_exp_r0 : Real.exp (-Real.exp r0) = 8/100 := by
  rw [exp_r0_eq, Real.exp_neg, Real.exp_log (by norm_num)]; norm_num

/-- The central branch at the junction. -/
def yj : ℚ := 42/100 * evQ Central.N (1764/10000) / evQ Central.D (1764/10000)

theorem central_j : moroCentral (42/100 : ℝ) = (yj : ℝ) := by
  rw [Central.central_eq, show (42/100 * (42/100) : ℝ) = ((1764/10000 : ℚ) : ℝ) by norm_num, ev_rat, ev_rat, yj]
  push_cast
  rfl

/-- The tail branch at the junction, from both sides. -/
theorem C_j : (yj : ℝ) + 300764/100000000000000 ≤ ev C r0 ∧ ev C r0 ≤ (yj : ℝ) + 300792/100000000000000 := by
  have l := (ev_mono C chk_C (by norm_num) r0_lo).2
  have u := (ev_mono C chk_C (le_trans (by norm_num) r0_lo) r0_hi).2
  have l1 : yj + 300764/100000000000000 ≤ evQ C (9265295931016/10000000000000) := by decide +kernel
  have u1 : evQ C (9265295931018/10000000000000) ≤ yj + 300792/100000000000000 := by decide +kernel
  have l2 : ((yj + 300764/100000000000000 : ℚ) : ℝ) ≤ ev C ((9265295931016/10000000000000 : ℚ) : ℝ) := by
    rw [ev_rat]; exact_mod_cast l1
  have u2 : ev C ((9265295931018/10000000000000 : ℚ) : ℝ) ≤ ((yj + 300792/100000000000000 : ℚ) : ℝ) := by
    rw [ev_rat]; exact_mod_cast u1
  push_cast at l2 u2
  exact ⟨l2.trans l, u.trans u2⟩

theorem yj_bracket : (1405/1000 : ℝ) ≤ yj ∧ (yj : ℝ) ≤ 1406/1000 := by
  have l : (1405/1000 : ℚ) ≤ yj := by decide +kernel
  have u : yj ≤ (1406/1000 : ℚ) := by decide +kernel
  have l' := (Rat.cast_le (K := ℝ)).2 l
  have u' := (Rat.cast_le (K := ℝ)).2 u
  push_cast at l' u'
  exact ⟨l', u'⟩

theorem d_j : 42259/10000000000000 ≤ (ev C r0 ^ 2 - (yj : ℝ) ^ 2) / 2 ∧
    (ev C r0 ^ 2 - (yj : ℝ) ^ 2) / 2 ≤ 42264/10000000000000 := by
  obtain ⟨l, u⟩ := C_j
  have l1 : (42259/10000000000000 : ℚ) ≤ ((yj + 300764/100000000000000) ^ 2 - yj ^ 2) / 2 := by decide +kernel
  have u1 : ((yj + 300792/100000000000000) ^ 2 - yj ^ 2) / 2 ≤ (42264/10000000000000 : ℚ) := by decide +kernel
  have l2 : (42259/10000000000000 : ℝ) ≤ (((yj : ℝ) + 300764/100000000000000) ^ 2 - (yj : ℝ) ^ 2) / 2 := by
    have := (Rat.cast_le (K := ℝ)).2 l1; push_cast at this; exact this
  have u2 : (((yj : ℝ) + 300792/100000000000000) ^ 2 - (yj : ℝ) ^ 2) / 2 ≤ 42264/10000000000000 := by
    have := (Rat.cast_le (K := ℝ)).2 u1; push_cast at this; exact this
  have hy := yj_bracket.1
  have a : ((yj : ℝ) + 300764/100000000000000) ^ 2 ≤ ev C r0 ^ 2 := pow_le_pow_left₀ (by linarith) l 2
  have b : ev C r0 ^ 2 ≤ ((yj : ℝ) + 300792/100000000000000) ^ 2 := pow_le_pow_left₀ (by linarith) u 2
  constructor <;> linarith

theorem DM_j : ev Central.D (42/100 * (42/100)) = ((evQ Central.D (1764/10000) : ℚ) : ℝ) ∧
    ev Central.M (42/100 * (42/100)) = ((evQ Central.M (1764/10000) : ℚ) : ℝ) := by
  rw [show (42/100 * (42/100) : ℝ) = ((1764/10000 : ℚ) : ℝ) by norm_num, ev_rat, ev_rat]
  exact ⟨rfl, rfl⟩

theorem DM_pos : 0 < evQ Central.D (1764/10000) ∧ 0 < evQ Central.M (1764/10000) := by decide +kernel

/-- The logarithms of the slopes of both branches at the junction. -/
theorem slope_j : ∃ x : ℝ, K r0 - Central.k (42/100) = x - (ev C r0 ^ 2 - (yj : ℝ) ^ 2) / 2 ∧
    50958110/100000000000000 ≤ x ∧ x ≤ 50958151/100000000000000 := by
  obtain ⟨eD, eM⟩ := DM_j
  obtain ⟨hD, hM⟩ := DM_pos
  have hD' : (0 : ℝ) < ((evQ Central.D (1764/10000) : ℚ) : ℝ) := by exact_mod_cast hD
  have hM' : (0 : ℝ) < ((evQ Central.M (1764/10000) : ℚ) : ℝ) := by exact_mod_cast hM
  have hr0 : 0 ≤ r0 := le_trans (by norm_num) r0_lo
  have hC : 0 < ev C1 r0 := lt_of_lt_of_le (by norm_num) (C1_pos hr0)
  have l := (ev_mono C1 chk_C1 (by norm_num) r0_lo).2
  have u := (ev_mono C1 chk_C1 hr0 r0_hi).2
  have h00 := (ev_mono C1 chk_C1 (by norm_num) r0_lo).1
  have hl := ell_lo
  have hu := ell_hi
  have hp := ell_pos
  set d := ((evQ Central.D (1764/10000) : ℚ) : ℝ) with hd
  set m := ((evQ Central.M (1764/10000) : ℚ) : ℝ) with hm
  have hX : 0 < d ^ 2 * ev C1 r0 * (25/2) / (m * Real.log (25/2)) := by positivity
  have hXu : d ^ 2 * ev C1 r0 * (25/2) / (m * Real.log (25/2)) ≤ 1 + 50958151/100000000000000 := by
    have h1 : evQ Central.D (1764/10000) ^ 2 * evQ C1 (9265295931018/10000000000000) * (25/2) ≤
        (1 + 50958151/100000000000000) * (evQ Central.M (1764/10000) * (25257286443082/10000000000000)) := by
      decide +kernel
    have h2 := (Rat.cast_le (K := ℝ)).2 h1
    have eC : ((evQ C1 (9265295931018/10000000000000) : ℚ) : ℝ) = ev C1 (9265295931018/10000000000000) := by
      rw [← ev_rat]; push_cast; rfl
    push_cast at h2
    rw [eC, ← hd, ← hm] at h2
    rw [div_le_iff₀ (by positivity)]
    refine le_trans (by gcongr) (h2.trans (by gcongr))
  have hXl : 1 + 50958137/100000000000000 ≤ d ^ 2 * ev C1 r0 * (25/2) / (m * Real.log (25/2)) := by
    have h1 : (1 + 50958137/100000000000000) * (evQ Central.M (1764/10000) * (25257286443083/10000000000000)) ≤
        evQ Central.D (1764/10000) ^ 2 * evQ C1 (9265295931016/10000000000000) * (25/2) := by
      decide +kernel
    have h2 := (Rat.cast_le (K := ℝ)).2 h1
    have eC : ((evQ C1 (9265295931016/10000000000000) : ℚ) : ℝ) = ev C1 (9265295931016/10000000000000) := by
      rw [← ev_rat]; push_cast; rfl
    push_cast at h2
    rw [eC, ← hd, ← hm] at h2
    rw [le_div_iff₀ (by positivity)]
    refine le_trans (by gcongr) (h2.trans (by gcongr))
  refine ⟨Real.log (d ^ 2 * ev C1 r0 * (25/2) / (m * Real.log (25/2))), ?_, ?_, ?_⟩
  · rw [Real.log_div (by positivity) (by positivity), Real.log_mul (by positivity) (by norm_num),
      Real.log_mul (by positivity) (by positivity), Real.log_mul (by positivity) (by positivity), Real.log_pow,
      K, Central.k, central_j, eD, eM, exp_r0_eq]
    have : r0 = Real.log (Real.log (25/2)) := by rw [r0, neg_log_eq]
    push_cast
    linarith
  · have := Real.one_sub_inv_le_log_of_pos hX
    have h2 : (d ^ 2 * ev C1 r0 * (25/2) / (m * Real.log (25/2)))⁻¹ ≤ (1 + 50958137/100000000000000)⁻¹ := by
      gcongr
    refine le_trans ?_ this
    refine le_trans ?_ (sub_le_sub_left h2 1)
    norm_num
  · have := Real.log_le_sub_one_of_pos hX
    linarith

theorem Wc_j : |ev Central.W (42/100 * (42/100)) + 50619933/100000000000000| ≤ 1/100000000000000 := by
  rw [show (42/100 * (42/100) : ℝ) = ((1764/10000 : ℚ) : ℝ) by norm_num, ev_rat]
  have h : |evQ Central.W (1764/10000) + 50619933/100000000000000| ≤ 1/100000000000000 := by
    rw [abs_le]; constructor <;> decide +kernel
  have := (Rat.cast_le (K := ℝ)).2 h
  push_cast at this
  exact this

theorem Vc_j : |42/100 * ev Central.V (42/100 * (42/100)) + 44713/100000000000000| ≤ 1/100000000000000 := by
  rw [show (42/100 * (42/100) : ℝ) = ((1764/10000 : ℚ) : ℝ) by norm_num, ev_rat]
  have h : |42/100 * evQ Central.V (1764/10000) + 44713/100000000000000| ≤ 1/100000000000000 := by
    rw [abs_le]; constructor <;> decide +kernel
  have := (Rat.cast_le (K := ℝ)).2 h
  push_cast at this
  exact this

theorem chk_Wj : posOn 2 (sub [-84390/100000000000000] W) (9265295931016/10000000000000) (2/10000000000000) = true := by
  decide +kernel
theorem chk_Wj' : posOn 2 (add [84410/100000000000000] W) (9265295931016/10000000000000) (2/10000000000000) = true := by
  decide +kernel

theorem K_j : |K r0 - Real.log (2 * Real.pi) / 2 - ev W r0| ≤ 28/100000000000 := by
  have u := posOn_sound _ _ _ _ (by norm_num) chk_Wj r0 (by have := r0_lo; push_cast; linarith)
    (by have := r0_hi; push_cast; linarith)
  have l := posOn_sound _ _ _ _ (by norm_num) chk_Wj' r0 (by have := r0_lo; push_cast; linarith)
    (by have := r0_hi; push_cast; linarith)
  simp only [ev_sub, ev_add, ev_cons, ev_nil] at u l
  push_cast at u l
  obtain ⟨x, hx, x1, x2⟩ := slope_j
  obtain ⟨d1, d2⟩ := d_j
  have a := abs_le.1 (Central.k_approx (x := 42/100) (by norm_num) le_rfl)
  have b := abs_le.1 Central.k_zero
  have c := abs_le.1 Wc_j
  rw [abs_le]
  constructor <;> linarith

theorem r0_mem : 9265/10000 ≤ r0 ∧ r0 ≤ 9266/10000 := ⟨le_trans (by norm_num) r0_lo, r0_hi.trans (by norm_num)⟩

theorem kappa {r : ℝ} (h0 : r0 ≤ r) (h1 : r ≤ 315/100) : |K r - Real.log (2 * Real.pi) / 2| ≤ 18/10000000000 := by
  have hr := r0_mem
  have hf : ∀ y ∈ Set.Icc r0 (315/100), HasDerivAt (fun y => K y - ev W y)
      (ev C2 y / ev C1 y - ev C y * ev C1 y - 1 + Real.exp y - ev Q y) y := fun y hy => by
    refine ((hasDerivAt_K (by linarith [hy.1])).fun_sub (hasDerivAt_ev W y)).congr_deriv ?_
    rw [ev_W']
  have hB : ∀ y ∈ Set.Icc r0 (315/100), HasDerivAt (fun y : ℝ => 2/100000000000 * y) (2/100000000000) y :=
    fun y _ => ((hasDerivAt_id' y).const_mul _).congr_deriv (by ring)
  have := abs_le.1 (abs_sub_le_of_deriv hf hB (fun y hy => residual (by linarith [hy.1]) hy.2) ⟨h0, h1⟩)
  have a := abs_le.1 (W_bound (r := r) (by linarith) h1)
  have b := abs_le.1 K_j
  rw [abs_le]
  constructor <;> linarith

/-- The tail branch at the junction. -/
theorem error_j : |Phi (-ev C r0) - 8/100| ≤ 5/100000000000 := by
  have h := abs_le.1 (Central.error_approx (x := 42/100) (by norm_num) le_rfl)
  have v := abs_le.1 Vc_j
  obtain ⟨l, u⟩ := C_j
  obtain ⟨d1, d2⟩ := d_j
  rw [central_j] at h
  have hlt : (yj : ℝ) < ev C r0 := by linarith
  obtain ⟨ξ, hξ, e⟩ := exists_hasDerivAt_eq_slope Phi (gaussianPDFReal 0 1) hlt
    (fun x _ => (hasDerivAt_Phi x).continuousAt.continuousWithinAt) (fun x _ => hasDerivAt_Phi x)
  have hy := yj_bracket
  -- the density between the two branches
  obtain ⟨eD, eM⟩ := DM_j
  obtain ⟨hD, hM⟩ := DM_pos
  have hD' : (0 : ℝ) < ((evQ Central.D (1764/10000) : ℚ) : ℝ) := by exact_mod_cast hD
  have hM' : (0 : ℝ) < ((evQ Central.M (1764/10000) : ℚ) : ℝ) := by exact_mod_cast hM
  have hφ : gaussianPDFReal 0 1 yj = Real.exp (Central.k (42/100) - Real.log (2 * Real.pi) / 2) *
      (((evQ Central.D (1764/10000) : ℚ) : ℝ) ^ 2 / ((evQ Central.M (1764/10000) : ℚ) : ℝ)) := by
    rw [pdf_eq, Central.k, central_j, eD, eM]
    have : ((evQ Central.D (1764/10000) : ℚ) : ℝ) ^ 2 / ((evQ Central.M (1764/10000) : ℚ) : ℝ) =
        Real.exp (2 * Real.log ((evQ Central.D (1764/10000) : ℚ) : ℝ) -
          Real.log ((evQ Central.M (1764/10000) : ℚ) : ℝ)) := by
      rw [Real.exp_sub, Real.exp_log hM', two_mul, Real.exp_add, Real.exp_log hD', sq]
    rw [this, ← Real.exp_add]
    congr 1
    ring
  have kc := abs_le.1 (Central.kappa (x := 42/100) (by norm_num) le_rfl)
  have wc := abs_le.1 Wc_j
  have q1 : (14866/100000 : ℚ) ≤ (1 - 1/1000000) * (1 - 1/1000000) * (evQ Central.D (1764/10000) ^ 2 / evQ Central.M (1764/10000)) := by
    decide +kernel
  have q2 : (1 + 1/1000000) * (evQ Central.D (1764/10000) ^ 2 / evQ Central.M (1764/10000)) ≤ (14867/100000 : ℚ) := by
    decide +kernel
  have q1' := (Rat.cast_le (K := ℝ)).2 q1
  have q2' := (Rat.cast_le (K := ℝ)).2 q2
  push_cast at q1' q2'
  set g := ((evQ Central.D (1764/10000) : ℚ) : ℝ) ^ 2 / ((evQ Central.M (1764/10000) : ℚ) : ℝ) with hg
  have hg0 : 0 < g := by positivity
  have E1 : 1 - 1/1000000 ≤ Real.exp (Central.k (42/100) - Real.log (2 * Real.pi) / 2) := by linarith
  have E2 : Real.exp (Central.k (42/100) - Real.log (2 * Real.pi) / 2) ≤ 1 + 1/1000000 := by linarith
  have hup : gaussianPDFReal 0 1 ξ ≤ 14867/100000 := by
    have a1 : gaussianPDFReal 0 1 ξ ≤ gaussianPDFReal 0 1 yj := by
      rw [pdf_eq, pdf_eq, Real.exp_le_exp]
      have : (yj : ℝ) ^ 2 ≤ ξ ^ 2 := pow_le_pow_left₀ (by linarith) hξ.1.le 2
      linarith
    refine a1.trans ?_
    rw [hφ]
    exact (mul_le_mul_of_nonneg_right E2 hg0.le).trans q2'
  have hlo : 14866/100000 ≤ gaussianPDFReal 0 1 ξ := by
    have a1 : gaussianPDFReal 0 1 yj * (1 - 1/1000000) ≤ gaussianPDFReal 0 1 ξ := by
      have b1 : 1 - 1/1000000 ≤ Real.exp (-(ξ ^ 2 - (yj : ℝ) ^ 2) / 2) := by
        have : ξ ^ 2 ≤ ev C r0 ^ 2 := pow_le_pow_left₀ (by linarith [hξ.1]) hξ.2.le 2
        have := Real.add_one_le_exp (-(ξ ^ 2 - (yj : ℝ) ^ 2) / 2)
        linarith
      have b2 : gaussianPDFReal 0 1 ξ = gaussianPDFReal 0 1 yj * Real.exp (-(ξ ^ 2 - (yj : ℝ) ^ 2) / 2) := by
        rw [pdf_eq, pdf_eq, ← Real.exp_add]; congr 1; ring
      rw [b2]
      exact mul_le_mul_of_nonneg_left b1 (gaussianPDFReal_nonneg _ _ _)
    refine le_trans ?_ a1
    rw [hφ]
    refine q1'.trans ?_
    have := mul_le_mul_of_nonneg_right E1 hg0.le
    nlinarith
  have hs : Phi (ev C r0) - Phi yj = gaussianPDFReal 0 1 ξ * (ev C r0 - yj) := by
    rw [e, div_mul_cancel₀ _ (by linarith)]
  have hΔ0 : 0 ≤ ev C r0 - yj := by linarith
  have m1 : gaussianPDFReal 0 1 ξ * (ev C r0 - yj) ≤ 14867/100000 * (300792/100000000000000) :=
    mul_le_mul hup (by linarith) hΔ0 (by norm_num)
  have m2 : 14866/100000 * (300764/100000000000000) ≤ gaussianPDFReal 0 1 ξ * (ev C r0 - yj) :=
    mul_le_mul hlo (by linarith) (by norm_num) (gaussianPDFReal_nonneg _ _ _)
  rw [Phi_neg, abs_le]
  norm_num at m1 m2
  constructor <;> linarith

/-- The error of the tail branch up to `r = 3.15`. -/
theorem error_mid {r : ℝ} (h0 : r0 ≤ r) (h1 : r ≤ 315/100) :
    |Phi (-ev C r) - Real.exp (-Real.exp r)| ≤ 21/100000000000 := by
  have hf : ∀ y ∈ Set.Icc r0 (315/100), HasDerivAt (fun y => Phi (-ev C y) - Real.exp (-Real.exp y))
      (Real.exp (y - Real.exp y) * (1 - Real.exp (K y - Real.log (2 * Real.pi) / 2))) y := fun y hy => by
    have hy0 : 0 ≤ y := by linarith [hy.1, r0_mem.1]
    have hC : 0 < ev C1 y := lt_of_lt_of_le (by norm_num) (C1_pos hy0)
    have hc := HasDerivAt.comp (h₂ := Phi) (h := fun y => -ev C y) y (hasDerivAt_Phi _) (hasDerivAt_ev C y).fun_neg
    have he := ((Real.hasDerivAt_exp y).fun_neg).exp
    refine (hc.fun_sub he).congr_deriv ?_
    have e1 : gaussianPDFReal 0 1 (-ev C y) * ev (der C) y =
        Real.exp (y - Real.exp y) * Real.exp (K y - Real.log (2 * Real.pi) / 2) := by
      rw [pdf_eq, ← Real.exp_add, K]
      conv_lhs => rw [show ev (der C) y = Real.exp (Real.log (ev C1 y)) by rw [Real.exp_log hC, C1]]
      rw [← Real.exp_add]
      congr 1
      ring
    have e2 : Real.exp (-Real.exp y) * Real.exp y = Real.exp (y - Real.exp y) := by
      rw [← Real.exp_add]; congr 1; ring
    linear_combination -e1 + e2
  have hB : ∀ y ∈ Set.Icc r0 (315/100), HasDerivAt (fun y => -(2/1000000000 * Real.exp (-Real.exp y)))
      (2/1000000000 * Real.exp (y - Real.exp y)) y := fun y _ => by
    refine ((((Real.hasDerivAt_exp y).fun_neg).exp).const_mul (2/1000000000)).fun_neg.congr_deriv ?_
    have e2 : Real.exp (-Real.exp y) * Real.exp y = Real.exp (y - Real.exp y) := by
      rw [← Real.exp_add]; congr 1; ring
    linear_combination (2/1000000000) * e2
  have := abs_le.1 (abs_sub_le_of_deriv hf hB (fun y hy => by
    have hκ := kappa hy.1 hy.2
    have hs : (K y - Real.log (2 * Real.pi) / 2) ^ 2 ≤ (18/10000000000) ^ 2 := by rw [← sq_abs]; gcongr
    have d := abs_le.1 ((Real.abs_exp_sub_one_sub_id_le (hκ.trans (by norm_num))).trans hs)
    have c := abs_le.1 hκ
    rw [abs_mul, abs_of_pos (Real.exp_pos _), mul_comm]
    refine mul_le_mul_of_nonneg_right ?_ (Real.exp_pos _).le
    rw [abs_le]
    constructor <;> linarith) ⟨h0, h1⟩)
  simp only [exp_exp_r0] at this
  have j := abs_le.1 error_j
  have hp := Real.exp_pos (-Real.exp r)
  rw [abs_le]
  constructor <;> linarith

theorem exp_far : Real.exp (-Real.exp (315/100)) ≤ 11/100000000000 := by
  have b := abs_le.1 Real.exp_one_near_20
  have he : 27182818/10000000 ≤ Real.exp 1 := by
    have : (27182818/10000000 : ℝ) ≤ 363916618873/133877442384 - 1 / 10 ^ 20 := by norm_num
    linarith
  have h3 : 23 ≤ Real.exp (315/100) := by
    have e : Real.exp (315/100) = Real.exp 1 ^ 3 * Real.exp (15/100) := by
      rw [← Real.exp_nat_mul, ← Real.exp_add]; congr 1; norm_num
    have h1 : (27182818/10000000 : ℝ) ^ 3 ≤ Real.exp 1 ^ 3 := pow_le_pow_left₀ (by norm_num) he 3
    have h2 := Real.add_one_le_exp (15/100 : ℝ)
    rw [e]
    calc (23 : ℝ) ≤ (27182818/10000000) ^ 3 * (15/100 + 1) := by norm_num
      _ ≤ _ := mul_le_mul h1 h2 (by norm_num) (by positivity)
  have h4 : Real.exp (-Real.exp (315/100)) ≤ Real.exp (-23) := Real.exp_le_exp.2 (by linarith)
  refine h4.trans ?_
  rw [Real.exp_neg, show (23 : ℝ) = (23 : ℕ) * 1 by norm_num, Real.exp_nat_mul]
  have h1 : (27182818/10000000 : ℝ) ^ 23 ≤ Real.exp 1 ^ 23 := pow_le_pow_left₀ (by norm_num) he 23
  rw [inv_le_comm₀ (by positivity) (by norm_num)]
  exact le_trans (by norm_num) h1

/-- The error of the tail branch is at most half a billionth. -/
theorem error {r : ℝ} (h0 : r0 ≤ r) : |Phi (-ev C r) - Real.exp (-Real.exp r)| ≤ 1/2000000000 := by
  rcases le_total r (315/100) with h1 | h1
  · exact (error_mid h0 h1).trans (by norm_num)
  · have m := abs_le.1 (error_mid (r := 315/100) (r0_mem.2.trans (by norm_num)) le_rfl)
    have f := exp_far
    have p1 : Phi (-ev C r) ≤ Phi (-ev C (315/100)) :=
      Phi_mono (neg_le_neg (ev_mono C chk_C (by norm_num) h1).2)
    have p0 := Phi_nonneg (-ev C r)
    have e1 : Real.exp (-Real.exp r) ≤ Real.exp (-Real.exp (315/100)) :=
      Real.exp_le_exp.2 (neg_le_neg (Real.exp_le_exp.2 h1))
    have e0 := Real.exp_pos (-Real.exp r)
    rw [abs_le]
    constructor <;> linarith

end Verif.Tail
