import Verif.Lemmas.PolyCheck
import Verif.Lemmas.NormalCdf
import Verif.Props.Quantile
import Mathlib.Analysis.Real.Pi.Bounds

/-!
# Accuracy of the central branch of the normal quantile function

With `y` the central branch and `k = log y' - y²/2`, the function `k` is constant exactly when `y`
is a quantile function of the normal law.  Its derivative is `x R(x²) / (D(x²)³ M(x²))` for
polynomials `R`, `D`, `M`; the certificate `P` approximates this quotient, so `k` is known up to a
few billionths, and the error of the branch is the integral of `exp (k - log (2π) / 2) - 1`.
The inequalities between polynomials are settled by `PolyCheck.posOn` inside the kernel.
-/

open PolyCheck ProbabilityTheory

namespace Verif

/-- If `|f'| ≤ B'` then `f` moves by no more than `B`. -/
theorem abs_sub_le_of_deriv {f f' B B' : ℝ → ℝ} {a b : ℝ}
    (hf : ∀ x ∈ Set.Icc a b, HasDerivAt f (f' x) x) (hB : ∀ x ∈ Set.Icc a b, HasDerivAt B (B' x) x)
    (h : ∀ x ∈ Set.Icc a b, |f' x| ≤ B' x) {x : ℝ} (hx : x ∈ Set.Icc a b) :
    |f x - f a| ≤ B x - B a := by
  have ha : a ∈ Set.Icc a b := ⟨le_rfl, hx.1.trans hx.2⟩
  have m1 : MonotoneOn (fun x => B x - f x) (Set.Icc a b) := by
    refine monotoneOn_of_deriv_nonneg (convex_Icc _ _)
      (fun y hy => ((hB y hy).sub (hf y hy)).continuousAt.continuousWithinAt)
      (fun y hy => ((hB y (interior_subset hy)).sub (hf y (interior_subset hy))).differentiableAt.differentiableWithinAt)
      fun y hy => ?_
    have hy' := interior_subset hy
    rw [((hB y hy').fun_sub (hf y hy')).deriv]
    linarith [(abs_le.1 (h y hy')).2]
  have m2 : MonotoneOn (fun x => B x + f x) (Set.Icc a b) := by
    refine monotoneOn_of_deriv_nonneg (convex_Icc _ _)
      (fun y hy => ((hB y hy).add (hf y hy)).continuousAt.continuousWithinAt)
      (fun y hy => ((hB y (interior_subset hy)).add (hf y (interior_subset hy))).differentiableAt.differentiableWithinAt)
      fun y hy => ?_
    have hy' := interior_subset hy
    rw [((hB y hy').fun_add (hf y hy')).deriv]
    linarith [(abs_le.1 (h y hy')).1]
  have e1 := m1 ha hx hx.1
  have e2 := m2 ha hx hx.1
  simp only at e1 e2
  rw [abs_le]
  constructor <;> linarith

namespace Central

/-- Numerator and denominator of the central branch, in the square of the argument. -/
def N : List ℚ := [62665705971/25000000000, -1861500062529/100000000000, 2069559886767/50000000000,
  -2544106049637/100000000000]
def D : List ℚ := [1, -84735109309/10000000000, 2308336743743/100000000000, -1053112050913/50000000000,
  313082909833/100000000000]
/-- The derivative of the branch is `M / D²`. -/
def M : List ℚ := add (mul N D) (0 :: smul 2 (sub (mul (der N) D) (mul N (der D))))
def R : List ℚ :=
  sub (smul 2 (mul (mul D D) (sub (mul (der M) D) (smul 2 (mul M (der D)))))) (mul N (mul M M))
def D3M : List ℚ := mul (mul D (mul D D)) M

/-- Certificate: an approximation of `R / D3M`. -/
def P : List ℚ := [1202091/80000000000, -1535573353/625000000000, 50652153489/500000000000,
   -21658061263/20000000000, -500821135979/10000000000, 47104792806949/10000000000,
   -2061098863733/7812500, 207450601615881/20000000, -1474860731219463/5000000,
   62140502141155709/10000000, -12308420827617871/125000, 118271811564941423/100000,
   -4310396176984551/400, 739654572559626997/10000, -188099196900355023/500,
   68741265975653057/50, -17071587890986382/5, 5162192148064973, -3589315865860572]

def W0 : ℚ := -713927/50000000000000

/-- `∫ x P(x²)`, in the square of the argument: coefficients divided by `2 (i + 1)`. -/
def halfInt (i : ℕ) : List ℚ → List ℚ
  | [] => []
  | c :: p => c / (2 * (i + 1)) :: halfInt (i + 1) p
def W : List ℚ := W0 :: halfInt 0 P

/-- `∫ W(x²) = x V(x²)`: coefficients divided by `2 i + 1`. -/
def oddInt (i : ℕ) : List ℚ → List ℚ
  | [] => []
  | c :: p => c / (2 * i + 1) :: oddInt (i + 1) p
def V : List ℚ := oddInt 0 W

set_option maxRecDepth 100000

theorem chk_D : posOn 8 (sub D [1/10]) 0 (1764/10000) = true := by decide +kernel
theorem chk_M : posOn 8 (sub M [1/20]) 0 (1764/10000) = true := by decide +kernel
theorem chk_up : posOn 12 (sub (smul (3/1000000000) D3M) (sub R (mul P D3M))) 0 (1764/10000) = true := by
  decide +kernel
theorem chk_lo : posOn 12 (sub (smul (3/1000000000) D3M) (sub (mul P D3M) R)) 0 (1764/10000) = true := by
  decide +kernel
/-- `W` is the integral of `P / 2`. -/
theorem chk_W : (sub (smul 2 (der W)) P).all (· = 0) = true := by decide +kernel
theorem chk_V : (sub (add V (0 :: smul 2 (der V))) W).all (· = 0) = true := by decide +kernel
theorem chk_Wup : posOn 12 (sub [6/10000000] W) 0 (1764/10000) = true := by decide +kernel
theorem chk_Wlo : posOn 12 (add [6/10000000] W) 0 (1764/10000) = true := by decide +kernel
theorem chk_Vup : posOn 12 (sub [46/100000000000] (0 :: square V)) 0 (42/100) = true := by decide +kernel
theorem chk_Vlo : posOn 12 (add [46/100000000000] (0 :: square V)) 0 (42/100) = true := by decide +kernel

/-! ## The pieces of the proof -/

theorem central_eq (x : ℝ) : moroCentral x = x * ev N (x * x) / ev D (x * x) := by
  rw [moroCentral_eq]
  simp only [cenNum, cenDen, N, D, ev_cons, ev_nil]
  push_cast
  congr 1 <;> ring

theorem D_pos {t : ℝ} (h0 : 0 ≤ t) (h1 : t ≤ 1764/10000) : 1/10 ≤ ev D t := by
  have := posOn_sound _ _ _ _ (by norm_num) chk_D t (by simpa using h0) (by push_cast; linarith)
  rw [ev_sub] at this
  simp at this
  linarith

theorem M_pos {t : ℝ} (h0 : 0 ≤ t) (h1 : t ≤ 1764/10000) : 1/20 ≤ ev M t := by
  have := posOn_sound _ _ _ _ (by norm_num) chk_M t (by simpa using h0) (by push_cast; linarith)
  rw [ev_sub] at this
  simp at this
  linarith

theorem ev_M (t : ℝ) : ev M t = ev N t * ev D t + 2 * t * (ev (der N) t * ev D t - ev N t * ev (der D) t) := by
  simp only [M, ev_add, ev_mul, ev_cons, ev_smul, ev_sub]; push_cast; ring

theorem ev_R (t : ℝ) : ev R t = 2 * ev D t ^ 2 * (ev (der M) t * ev D t - 2 * (ev M t * ev (der D) t)) -
    ev N t * ev M t ^ 2 := by
  simp only [R, ev_mul, ev_smul, ev_sub]; push_cast; ring

theorem ev_D3M (t : ℝ) : ev D3M t = ev D t ^ 3 * ev M t := by
  simp only [D3M, ev_mul]; ring

theorem ev_W' (t : ℝ) : 2 * ev (der W) t = ev P t := by
  have := ev_all_zero _ chk_W t
  rw [ev_sub, ev_smul] at this
  push_cast at this
  linarith

theorem ev_V' (t : ℝ) : ev V t + 2 * t * ev (der V) t = ev W t := by
  have := ev_all_zero _ chk_V t
  simp only [ev_sub, ev_add, ev_smul, ev_cons] at this
  push_cast at this
  linarith

theorem residual {t : ℝ} (h0 : 0 ≤ t) (h1 : t ≤ 1764/10000) :
    |ev R t / ev D3M t - ev P t| ≤ 3/1000000000 := by
  have u := posOn_sound _ _ _ _ (by norm_num) chk_up t (by simpa using h0) (by push_cast; linarith)
  have l := posOn_sound _ _ _ _ (by norm_num) chk_lo t (by simpa using h0) (by push_cast; linarith)
  simp only [ev_sub, ev_smul, ev_mul] at u l
  push_cast at u l
  have hD := D_pos h0 h1
  have hM := M_pos h0 h1
  have hp : 0 < ev D3M t := by rw [ev_D3M]; have : 0 < ev D t := by linarith
                               have : 0 < ev M t := by linarith
                               positivity
  rw [div_sub' hp.ne', abs_div, abs_of_pos hp, div_le_iff₀ hp, abs_le]
  constructor <;> linarith

theorem W_bound {t : ℝ} (h0 : 0 ≤ t) (h1 : t ≤ 1764/10000) : |ev W t| ≤ 6/10000000 := by
  have u := posOn_sound _ _ _ _ (by norm_num) chk_Wup t (by simpa using h0) (by push_cast; linarith)
  have l := posOn_sound _ _ _ _ (by norm_num) chk_Wlo t (by simpa using h0) (by push_cast; linarith)
  simp only [ev_sub, ev_add, ev_cons, ev_nil] at u l
  push_cast at u l
  rw [abs_le]
  constructor <;> linarith

theorem V_bound {x : ℝ} (h0 : 0 ≤ x) (h1 : x ≤ 42/100) : |x * ev V (x * x)| ≤ 46/100000000000 := by
  have u := posOn_sound _ _ _ _ (by norm_num) chk_Vup x (by simpa using h0) (by push_cast; linarith)
  have l := posOn_sound _ _ _ _ (by norm_num) chk_Vlo x (by simpa using h0) (by push_cast; linarith)
  simp only [ev_sub, ev_add, ev_cons, ev_nil, ev_square] at u l
  push_cast at u l
  rw [abs_le]
  constructor <;> linarith

theorem sq_mem {x : ℝ} (h0 : 0 ≤ x) (h1 : x ≤ 42/100) : 0 ≤ x * x ∧ x * x ≤ 1764/10000 :=
  ⟨mul_self_nonneg x, by nlinarith⟩

theorem hasDerivAt_sq (p : List ℚ) (x : ℝ) :
    HasDerivAt (fun x => ev p (x * x)) (ev (der p) (x * x) * (2 * x)) x := by
  have hs : HasDerivAt (fun x : ℝ => x * x) (2 * x) x := by
    refine ((hasDerivAt_id' x).fun_mul (hasDerivAt_id' x)).congr_deriv ?_
    ring
  exact HasDerivAt.comp (h₂ := ev p) (h := fun x : ℝ => x * x) x (hasDerivAt_ev p (x * x)) hs

/-- The logarithm of the slope less half the square of the branch. -/
noncomputable def k (x : ℝ) : ℝ :=
  Real.log (ev M (x * x)) - 2 * Real.log (ev D (x * x)) - moroCentral x ^ 2 / 2

theorem hasDerivAt_y {x : ℝ} (h0 : 0 ≤ x) (h1 : x ≤ 42/100) :
    HasDerivAt (moroCentral (F := ℝ)) (ev M (x * x) / ev D (x * x) ^ 2) x := by
  obtain ⟨t0, t1⟩ := sq_mem h0 h1
  have hD := D_pos t0 t1
  have hD' : ev D (x * x) ≠ 0 := by intro h; rw [h] at hD; norm_num at hD
  rw [show moroCentral (F := ℝ) = fun x => x * ev N (x * x) / ev D (x * x) from funext central_eq]
  refine (((hasDerivAt_id' x).fun_mul (hasDerivAt_sq N x)).fun_div (hasDerivAt_sq D x) hD').congr_deriv ?_
  rw [ev_M]
  congr 1
  ring

theorem hasDerivAt_k {x : ℝ} (h0 : 0 ≤ x) (h1 : x ≤ 42/100) :
    HasDerivAt k (x * (ev R (x * x) / ev D3M (x * x))) x := by
  obtain ⟨t0, t1⟩ := sq_mem h0 h1
  have hD := D_pos t0 t1
  have hM := M_pos t0 t1
  have hD' : ev D (x * x) ≠ 0 := by intro h; rw [h] at hD; norm_num at hD
  have hM' : ev M (x * x) ≠ 0 := by intro h; rw [h] at hM; norm_num at hM
  clear hD hM
  refine ((((hasDerivAt_sq M x).log hM').fun_sub (((hasDerivAt_sq D x).log hD').const_mul 2)).fun_sub
    (((hasDerivAt_y h0 h1).fun_pow 2).div_const 2)).congr_deriv ?_
  rw [ev_R, ev_D3M, central_eq, show 2 - 1 = 1 from rfl, pow_one]
  generalize ev D (x * x) = d at hD'
  generalize ev M (x * x) = m at hM'
  field_simp
  ring

/-- `k` along the branch, up to a certified error. -/
theorem k_approx {x : ℝ} (h0 : 0 ≤ x) (h1 : x ≤ 42/100) :
    |k x - k 0 - (ev W (x * x) - W0)| ≤ 3/2000000000 * (x * x) := by
  have hW0 : ev W (0 * 0) = W0 := by simp [W]
  have hf : ∀ y ∈ Set.Icc (0 : ℝ) (42/100), HasDerivAt (fun y => k y - ev W (y * y))
      (y * (ev R (y * y) / ev D3M (y * y) - ev P (y * y))) y := fun y hy => by
    refine ((hasDerivAt_k hy.1 hy.2).fun_sub (hasDerivAt_sq W y)).congr_deriv ?_
    have := ev_W' (y * y)
    linear_combination (-y) * this
  have hB : ∀ y ∈ Set.Icc (0 : ℝ) (42/100), HasDerivAt (fun y : ℝ => 3/2000000000 * (y * y))
      (3/1000000000 * y) y := fun y _ => by
    refine (((hasDerivAt_id' y).fun_mul (hasDerivAt_id' y)).const_mul (3/2000000000)).congr_deriv ?_
    ring
  have := abs_sub_le_of_deriv hf hB (fun y hy => by
    obtain ⟨t0, t1⟩ := sq_mem hy.1 hy.2
    have := residual t0 t1
    rw [abs_mul, abs_of_nonneg hy.1, mul_comm]
    exact mul_le_mul_of_nonneg_right this hy.1) ⟨h0, h1⟩
  simp only [hW0] at this
  rw [show k x - k 0 - (ev W (x * x) - (W0 : ℝ)) = k x - ev W (x * x) - (k 0 - (W0 : ℝ)) by ring]
  refine this.trans (le_of_eq ?_)
  ring

theorem k_zero : |k 0 - Real.log (2 * Real.pi) / 2 - W0| ≤ 1/1000000000000 := by
  have hk : k 0 = Real.log (62665705971/25000000000) := by
    have e1 : ev M 0 = 62665705971/25000000000 := by
      rw [ev_M]; simp [N, D]
    have e2 : ev D 0 = 1 := by simp [D]
    rw [k, mul_zero, e1, e2, moroCentral_zero]; simp
  have hp : (0 : ℝ) < 2 * Real.pi := by positivity
  have e : k 0 - Real.log (2 * Real.pi) / 2 =
      Real.log ((62665705971/25000000000) ^ 2 / (2 * Real.pi)) / 2 := by
    rw [hk, Real.log_div (by norm_num) hp.ne', Real.log_pow]; push_cast; ring
  have hX : (0 : ℝ) < (62665705971/25000000000) ^ 2 / (2 * Real.pi) := by positivity
  have u := Real.log_le_sub_one_of_pos hX
  have l := Real.one_sub_inv_le_log_of_pos hX
  have p1 := Real.pi_gt_d20
  have p2 := Real.pi_lt_d20
  rw [inv_div] at l
  have u' : (62665705971/25000000000 : ℝ) ^ 2 / (2 * Real.pi) ≤
      (62665705971/25000000000) ^ 2 / (2 * 3.14159265358979323846) := by gcongr
  have l' : (2 * Real.pi) / (62665705971/25000000000 : ℝ) ^ 2 ≤
      (2 * 3.14159265358979323847) / (62665705971/25000000000) ^ 2 := by gcongr
  rw [e, abs_le, W0]
  constructor
  · have : -(28557089/1000000000000000) ≤ 1 - (2 * 3.14159265358979323847) / (62665705971/25000000000 : ℝ) ^ 2 := by
      norm_num
    push_cast
    linarith
  · have : (62665705971/25000000000 : ℝ) ^ 2 / (2 * 3.14159265358979323846) - 1 ≤ -(28557086/1000000000000000) := by
      norm_num
    push_cast
    linarith

/-- Deviation of the density along the branch, up to a certified error. -/
theorem kappa {x : ℝ} (h0 : 0 ≤ x) (h1 : x ≤ 42/100) :
    |Real.exp (k x - Real.log (2 * Real.pi) / 2) - 1 - ev W (x * x)| ≤
      3/2000000000 * (x * x) + 2/1000000000000 := by
  obtain ⟨t0, t1⟩ := sq_mem h0 h1
  have a := abs_le.1 (k_approx h0 h1)
  have b := abs_le.1 k_zero
  have c := abs_le.1 (W_bound t0 t1)
  set κ := k x - Real.log (2 * Real.pi) / 2 with hκ
  have hk : |κ| ≤ 7/10000000 := by rw [abs_le]; constructor <;> linarith
  have hs : κ ^ 2 ≤ (7/10000000) ^ 2 := by rw [← sq_abs]; gcongr
  have d := abs_le.1 ((Real.abs_exp_sub_one_sub_id_le (hk.trans (by norm_num))).trans hs)
  rw [abs_le]
  constructor <;> linarith

/-- The error of the central branch is `x V(x²)`, up to four hundredths of a billionth. -/
theorem error_approx {x : ℝ} (h0 : 0 ≤ x) (h1 : x ≤ 42/100) :
    |Phi (moroCentral x) - 1/2 - x - x * ev V (x * x)| ≤ 4/100000000000 := by
  have hf : ∀ y ∈ Set.Icc (0 : ℝ) (42/100), HasDerivAt
      (fun y => Phi (moroCentral y) - y - y * ev V (y * y))
      (Real.exp (k y - Real.log (2 * Real.pi) / 2) - 1 - ev W (y * y)) y := fun y hy => by
    obtain ⟨t0, t1⟩ := sq_mem hy.1 hy.2
    have hD : 0 < ev D (y * y) := lt_of_lt_of_le (by norm_num) (D_pos t0 t1)
    have hM : 0 < ev M (y * y) := lt_of_lt_of_le (by norm_num) (M_pos t0 t1)
    have hc := HasDerivAt.comp (h₂ := Phi) (h := moroCentral (F := ℝ)) y (hasDerivAt_Phi _)
      (hasDerivAt_y hy.1 hy.2)
    refine ((hc.fun_sub (hasDerivAt_id' y)).fun_sub ((hasDerivAt_id' y).fun_mul
      (hasDerivAt_sq V y))).congr_deriv ?_
    have e : gaussianPDFReal 0 1 (moroCentral y) * (ev M (y * y) / ev D (y * y) ^ 2) =
        Real.exp (k y - Real.log (2 * Real.pi) / 2) := by
      rw [pdf_eq, k]
      have : ev M (y * y) / ev D (y * y) ^ 2 =
          Real.exp (Real.log (ev M (y * y)) - 2 * Real.log (ev D (y * y))) := by
        rw [Real.exp_sub, Real.exp_log hM, two_mul, Real.exp_add, Real.exp_log hD, sq]
      rw [this, ← Real.exp_add]
      congr 1
      ring
    rw [e]
    have := ev_V' (y * y)
    linear_combination -this
  have hB : ∀ y ∈ Set.Icc (0 : ℝ) (42/100), HasDerivAt
      (fun y : ℝ => 1/2000000000 * y ^ 3 + 2/1000000000000 * y)
      (3/2000000000 * (y * y) + 2/1000000000000) y := fun y _ => by
    refine ((((hasDerivAt_id' y).fun_pow 3).const_mul (1/2000000000)).fun_add
      ((hasDerivAt_id' y).const_mul (2/1000000000000))).congr_deriv ?_
    push_cast; ring
  have := abs_sub_le_of_deriv hf hB (fun y hy => kappa hy.1 hy.2) ⟨h0, h1⟩
  simp only [moroCentral_zero, Phi_zero] at this
  rw [show Phi (moroCentral x) - 1/2 - x - x * ev V (x * x) =
    Phi (moroCentral x) - x - x * ev V (x * x) - (1/2 - 0 - 0 * ev V (0 * 0)) by ring]
  refine this.trans ?_
  have h3 : x ^ 3 ≤ (42/100) ^ 3 := by gcongr
  nlinarith

/-- The error of the central branch is at most half a billionth. -/
theorem error {x : ℝ} (h : |x| ≤ 42/100) : |Phi (moroCentral x) - (1/2 + x)| ≤ 1/2000000000 := by
  have main : ∀ x : ℝ, 0 ≤ x → x ≤ 42/100 → |Phi (moroCentral x) - (1/2 + x)| ≤ 1/2000000000 := by
    intro x h0 h1
    have a := abs_le.1 (error_approx h0 h1)
    have b := abs_le.1 (V_bound h0 h1)
    rw [abs_le]
    constructor <;> linarith
  rcases le_total 0 x with h0 | h0
  · exact main x h0 ((le_abs_self x).trans h)
  · have := main (-x) (by linarith) ((neg_le_abs x).trans h)
    rw [moroCentral_neg, Phi_neg, ← abs_neg] at this
    rwa [show Phi (moroCentral x) - (1/2 + x) = -(1 - Phi (moroCentral x) - (1/2 + -x)) by ring]

end Central

end Verif
