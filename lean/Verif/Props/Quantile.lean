import Verif.Model.Random
import Mathlib.Analysis.SpecialFunctions.Log.Deriv
import Mathlib.Analysis.Calculus.Deriv.MeanValue
import Mathlib.Analysis.Calculus.Deriv.Inv
import Mathlib.Analysis.Calculus.Deriv.Polynomial

/-!
# Property C43: the normal quantile function
-/

namespace Verif

/-! ## The central region -/

/-- Numerator and denominator of the rational approximation, as polynomials in the square. -/
noncomputable def cenNum (s : ℝ) : ℝ :=
  (62665705971 / 25000000000) + (-1861500062529 / 100000000000) * s ^ 1 + (2069559886767 / 50000000000) * s ^ 2 + (-2544106049637 / 100000000000) * s ^ 3

noncomputable def cenDen (s : ℝ) : ℝ :=
  (1 / 1) + (-84735109309 / 10000000000) * s ^ 1 + (2308336743743 / 100000000000) * s ^ 2 + (-1053112050913 / 50000000000) * s ^ 3 + (313082909833 / 100000000000) * s ^ 4

noncomputable def cenNum' (s : ℝ) : ℝ :=
  (-1861500062529 / 100000000000) + (2069559886767 / 25000000000) * s ^ 1 + (-7632318148911 / 100000000000) * s ^ 2

noncomputable def cenDen' (s : ℝ) : ℝ :=
  (-84735109309 / 10000000000) + (2308336743743 / 50000000000) * s ^ 1 + (-3159336152739 / 50000000000) * s ^ 2 + (313082909833 / 25000000000) * s ^ 3

theorem moroCentral_eq (x : ℝ) : moroCentral x = x * cenNum (x * x) / cenDen (x * x) := by
  simp only [moroCentral, cenNum, cenDen, Fl.lit_real]
  push_cast
  congr 1
  · ring
  · ring

theorem cenDen_pos {s : ℝ} (h0 : 0 ≤ s) (h1 : s ≤ 1764 / 10000) : 0 < cenDen s := by
  obtain ⟨t, ht, rfl⟩ : ∃ t : ℝ, 0 ≤ t ∧ s = 1764 / 10000 - t := ⟨1764 / 10000 - s, by linarith, by ring⟩
  have : cenDen (1764 / 10000 - t) = (433504126242117254381713 / 3906250000000000000000000) + (869975293585263280957 / 390625000000000000000) * t ^ 1 + (3913050247963822519 / 312500000000000000) * t ^ 2 + (1178320500404897 / 62500000000000) * t ^ 3 + (313082909833 / 100000000000) * t ^ 4 := by
    unfold cenDen; ring
  rw [this]
  positivity

theorem cenSlope_pos {s : ℝ} (h0 : 0 ≤ s) (h1 : s ≤ 1764 / 10000) :
    0 < (cenNum s + 2 * s * cenNum' s) * cenDen s - 2 * s * cenNum s * cenDen' s := by
  obtain ⟨t, ht, rfl⟩ : ∃ t : ℝ, 0 ≤ t ∧ s = 1764 / 10000 - t := ⟨1764 / 10000 - s, by linarith, by ring⟩
  have : (cenNum (1764 / 10000 - t) + 2 * (1764 / 10000 - t) * cenNum' (1764 / 10000 - t)) *
      cenDen (1764 / 10000 - t) - 2 * (1764 / 10000 - t) * cenNum (1764 / 10000 - t) *
      cenDen' (1764 / 10000 - t) = (505631268842782924435182992469631889786510901 / 6103515625000000000000000000000000000000000000) + (5842208881969094438076864239583360522771573 / 2441406250000000000000000000000000000000000) * t ^ 1 + (25847245519372206466988541898247493299241 / 976562500000000000000000000000000000000) * t ^ 2 + (10782198683409075264933401179546937733 / 78125000000000000000000000000000000) * t ^ 3 + (11192275448970092420643151596507987 / 31250000000000000000000000000000) * t ^ 4 + (24430312856833117708637503353279 / 62500000000000000000000000000) * t ^ 5 +
      t ^ 6 * ((6135831504729370953110217027 / 25000000000000000000000000) - (796516124944090693380621 / 10000000000000000000000) * t) := by
    unfold cenNum cenDen cenNum' cenDen'; ring
  rw [this]
  have h6 : 0 < (6135831504729370953110217027 / 25000000000000000000000000) - (796516124944090693380621 / 10000000000000000000000) * t := by linarith
  positivity


theorem hasDerivAt_quartic (a0 a1 a2 a3 a4 s : ℝ) :
    HasDerivAt (fun s => a0 + a1 * s ^ 1 + a2 * s ^ 2 + a3 * s ^ 3 + a4 * s ^ 4)
      (a1 + 2 * a2 * s + 3 * a3 * s ^ 2 + 4 * a4 * s ^ 3) s := by
  have h := (((((hasDerivAt_pow 1 s).const_mul a1).const_add a0).add ((hasDerivAt_pow 2 s).const_mul a2)).add
    ((hasDerivAt_pow 3 s).const_mul a3)).add ((hasDerivAt_pow 4 s).const_mul a4)
  refine h.congr_deriv ?_
  push_cast
  ring

theorem hasDerivAt_cenNum (s : ℝ) : HasDerivAt cenNum (cenNum' s) s := by
  have h := hasDerivAt_quartic (62665705971 / 25000000000) (-1861500062529 / 100000000000)
    (2069559886767 / 50000000000) (-2544106049637 / 100000000000) 0 s
  refine (h.congr_deriv ?_).congr_of_eventuallyEq (.of_forall fun x => ?_)
  · unfold cenNum'; ring
  · unfold cenNum; ring

theorem hasDerivAt_cenDen (s : ℝ) : HasDerivAt cenDen (cenDen' s) s := by
  have h := hasDerivAt_quartic 1 (-84735109309 / 10000000000) (2308336743743 / 100000000000)
    (-1053112050913 / 50000000000) (313082909833 / 100000000000) s
  refine (h.congr_deriv ?_).congr_of_eventuallyEq (.of_forall fun x => ?_)
  · unfold cenDen'; ring
  · unfold cenDen; ring

theorem sq_le_of_abs {x : ℝ} (h : |x| ≤ 42 / 100) : x * x ≤ 1764 / 10000 := by
  have := mul_le_mul h h (abs_nonneg x) (by norm_num)
  rw [abs_mul_abs_self] at this
  linarith

theorem hasDerivAt_central {x : ℝ} (h : |x| ≤ 42 / 100) :
    HasDerivAt (fun x => x * cenNum (x * x) / cenDen (x * x))
      (((cenNum (x * x) + 2 * (x * x) * cenNum' (x * x)) * cenDen (x * x) -
        2 * (x * x) * cenNum (x * x) * cenDen' (x * x)) / cenDen (x * x) ^ 2) x := by
  have hs : HasDerivAt (fun x : ℝ => x * x) (2 * x) x := by
    have := (hasDerivAt_id x).mul (hasDerivAt_id x)
    refine this.congr_deriv ?_
    simp; ring
  have hN := HasDerivAt.comp (h₂ := cenNum) (h := fun x : ℝ => x * x) x (hasDerivAt_cenNum (x * x)) hs
  have hD := HasDerivAt.comp (h₂ := cenDen) (h := fun x : ℝ => x * x) x (hasDerivAt_cenDen (x * x)) hs
  have hpos := cenDen_pos (mul_self_nonneg x) (sq_le_of_abs h)
  have h1 := ((hasDerivAt_id x).mul hN).div hD hpos.ne'
  refine h1.congr_deriv ?_
  simp only [Function.comp, id, Pi.mul_apply]
  congr 1
  ring

/-- The central branch is strictly increasing. -/
theorem moroCentral_strictMono : StrictMonoOn (moroCentral (F := ℝ)) (Set.Icc (-(42 / 100)) (42 / 100)) := by
  have e : moroCentral (F := ℝ) = fun x => x * cenNum (x * x) / cenDen (x * x) := funext moroCentral_eq
  rw [e]
  have habs : ∀ x ∈ Set.Icc (-(42 / 100 : ℝ)) (42 / 100), |x| ≤ 42 / 100 := fun x hx => abs_le.mpr hx
  refine strictMonoOn_of_deriv_pos (convex_Icc _ _)
    (fun x hx => (hasDerivAt_central (habs x hx)).continuousAt.continuousWithinAt) fun x hx => ?_
  have hx' := habs x (interior_subset hx)
  rw [(hasDerivAt_central hx').deriv]
  have := cenSlope_pos (mul_self_nonneg x) (sq_le_of_abs hx')
  have := cenDen_pos (mul_self_nonneg x) (sq_le_of_abs hx')
  positivity

theorem moroCentral_neg (x : ℝ) : moroCentral (-x) = -moroCentral x := by
  rw [moroCentral_eq, moroCentral_eq, neg_mul_neg, neg_mul, neg_div]

theorem moroCentral_zero : moroCentral (0 : ℝ) = 0 := by rw [moroCentral_eq]; simp

/-! ## The tail -/

theorem moroTailPoly_strictMono : StrictMonoOn (moroTailPoly (F := ℝ)) (Set.Ici 0) := by
  intro x hx y hy hxy
  simp only [Set.mem_Ici] at hx hy
  simp only [moroTailPoly, Fl.lit_real]
  gcongr <;> first | positivity | assumption | skip

theorem exp_r0 : Real.exp (926529592 / 1000000000) ≤ 2525728643 / 1000000000 := by
  refine (Real.exp_bound' (by norm_num) (by norm_num) (n := 14) (by norm_num)).trans ?_
  simp only [Finset.sum_range_succ, Finset.sum_range_zero, Nat.factorial]
  norm_num

theorem exp_L : Real.exp (2525728643 / 1000000000) ≤ 25 / 2 := by
  have h : Real.exp (2525728643 / 3000000000) ≤ 23207944165 / 10000000000 := by
    refine (Real.exp_bound' (by norm_num) (by norm_num) (n := 14) (by norm_num)).trans ?_
    simp only [Finset.sum_range_succ, Finset.sum_range_zero, Nat.factorial]
    norm_num
  have e : Real.exp (2525728643 / 1000000000) = Real.exp (2525728643 / 3000000000) ^ 3 := by
    rw [← Real.exp_nat_mul]; norm_num
  rw [e]
  exact (pow_le_pow_left₀ (Real.exp_pos _).le h 3).trans (by norm_num)

/-- `log(-log(0.08))` from below. -/
theorem loglog_ge : 926529592 / 1000000000 ≤ Real.log (-Real.log (8 / 100)) := by
  have h1 : 2525728643 / 1000000000 ≤ -Real.log (8 / 100) := by
    rw [← Real.log_inv, Real.le_log_iff_exp_le (by norm_num)]
    exact exp_L.trans (by norm_num)
  rw [Real.le_log_iff_exp_le (lt_of_lt_of_le (by norm_num) h1)]
  exact exp_r0.trans h1

/-- `log(-log(u))` is strictly decreasing and positive for small `u`. -/
theorem loglog_strictAnti {u w : ℝ} (hu : 0 < u) (huw : u < w) (hw : w ≤ 8 / 100) :
    0 < Real.log (-Real.log w) ∧ Real.log (-Real.log w) < Real.log (-Real.log u) := by
  have h1 : Real.log w ≤ Real.log (8 / 100) := Real.log_le_log (hu.trans huw) hw
  have h2 : Real.log u < Real.log w := Real.log_lt_log hu huw
  have h3 := loglog_ge
  have h4 : 0 < -Real.log (8 / 100 : ℝ) := by
    have := Real.log_neg (x := 8 / 100) (by norm_num) (by norm_num); linarith
  have h5 : Real.log (-Real.log (8 / 100)) ≤ Real.log (-Real.log w) := Real.log_le_log h4 (by linarith)
  exact ⟨by linarith, Real.log_lt_log (by linarith) (by linarith)⟩

/-- At the junction the tail branch lies below the central branch. -/
theorem junction : -moroTailPoly (Real.log (-Real.log (8 / 100))) < moroCentral (-(42 / 100) : ℝ) := by
  have h0 : (0 : ℝ) ≤ 926529592 / 1000000000 := by norm_num
  have h1 : moroTailPoly (926529592 / 1000000000 : ℝ) ≤ moroTailPoly (Real.log (-Real.log (8 / 100))) :=
    moroTailPoly_strictMono.monotoneOn h0 (h0.trans loglog_ge) loglog_ge
  have h2 : -moroCentral (-(42 / 100) : ℝ) < moroTailPoly (926529592 / 1000000000 : ℝ) := by
    simp only [moroCentral, moroTailPoly, Fl.lit_real]
    norm_num
  linarith

/-! ## The quantile function -/

/-- The value of `inv_cdf` on `(0, 1/2]`. -/
noncomputable def lowerQuantile (q : ℝ) : ℝ :=
  if 8 / 100 < q then moroCentral (q - 1 / 2) else -moroTailPoly (Real.log (-Real.log q))

/-- The value of `inv_cdf` on `(0, 1)`. -/
noncomputable def quantile (q : ℝ) : ℝ := if 1 / 2 < q then -lowerQuantile (1 - q) else lowerQuantile q

theorem moroInvCdf_real {q : ℝ} (h0 : 0 < q) (h1 : q < 1) : moroInvCdf q = .ok (quantile q) := by
  have c1 : (Fl.le q (lit 0) || Fl.ge q (lit 1)) = false := by
    simp [Fl.ge, h0, h1]
  have habs : ∀ u : ℝ, u ≤ 1 / 2 → (Fl.lt (Fl.fabs (u - lit (1 / 2))) (lit (42 / 100)) = true ↔ 8 / 100 < u) := by
    intro u hu
    simp only [Fl.lit_real, Fl.lt_real, Fl.fabs_real, decide_eq_true_eq]
    rw [abs_of_nonpos (by push_cast; linarith)]
    push_cast
    constructor <;> intro h <;> linarith
  unfold moroInvCdf quantile lowerQuantile
  rw [c1]
  simp only [Bool.false_eq_true, if_false]
  by_cases hq : 1 / 2 < q
  · have c2 : Fl.gt q (lit (1 / 2)) = true := by simpa [Fl.gt] using hq
    have hl : (lit 1 : ℝ) - q = 1 - q := by simp
    simp only [c2, if_true, if_pos hq, hl]
    by_cases hc : 8 / 100 < 1 - q
    · rw [if_pos ((habs (1 - q) (by linarith)).mpr hc), if_pos hc]
      norm_num
    · rw [if_neg (fun h => hc ((habs (1 - q) (by linarith)).mp h)), if_neg hc, neg_neg]
      simp
  · have c2 : Fl.gt q (lit (1 / 2)) = false := by simpa [Fl.gt] using not_lt.mp hq
    simp only [c2, if_neg hq, Bool.false_eq_true, if_false]
    by_cases hc : 8 / 100 < q
    · rw [if_pos ((habs q (not_lt.mp hq)).mpr hc), if_pos hc]
      norm_num
    · rw [if_neg (fun h => hc ((habs q (not_lt.mp hq)).mp h)), if_neg hc]
      simp

theorem lowerQuantile_strictMono : StrictMonoOn lowerQuantile (Set.Ioc 0 (1 / 2)) := by
  intro p hp q hq hpq
  simp only [lowerQuantile]
  by_cases h1 : 8 / 100 < p
  · rw [if_pos h1, if_pos (h1.trans hpq)]
    refine moroCentral_strictMono ⟨?_, ?_⟩ ⟨?_, ?_⟩ (by linarith)
    · linarith
    · linarith [hp.2]
    · linarith
    · linarith [hq.2]
  · rw [if_neg h1]
    have hp8 := not_lt.mp h1
    by_cases h2 : 8 / 100 < q
    · rw [if_pos h2]
      have hj := junction
      have hc : moroCentral (-(42 / 100) : ℝ) ≤ moroCentral (q - 1 / 2) :=
        moroCentral_strictMono.monotoneOn ⟨by norm_num, by norm_num⟩ ⟨by linarith, by linarith [hq.2]⟩ (by linarith)
      have ht : moroTailPoly (Real.log (-Real.log (8 / 100))) ≤ moroTailPoly (Real.log (-Real.log p)) := by
        rcases hp8.lt_or_eq with h | h
        · have := loglog_strictAnti hp.1 h le_rfl
          exact (moroTailPoly_strictMono this.1.le (this.1.trans this.2).le this.2).le
        · rw [h]
      linarith
    · rw [if_neg h2]
      have := loglog_strictAnti hp.1 hpq (not_lt.mp h2)
      exact neg_lt_neg (moroTailPoly_strictMono this.1.le (this.1.trans this.2).le this.2)

theorem lowerQuantile_half : lowerQuantile (1 / 2) = 0 := by
  rw [lowerQuantile, if_pos (by norm_num), sub_self, moroCentral_zero]

theorem quantile_symm {q : ℝ} : quantile (1 - q) = -quantile q := by
  unfold quantile
  rcases lt_trichotomy q (1 / 2) with h | h | h
  · rw [if_pos (by linarith), if_neg (by linarith), sub_sub_cancel]
  · subst h
    norm_num [lowerQuantile_half]
  · rw [if_neg (by linarith), if_pos h, neg_neg]

theorem quantile_strictMono : StrictMonoOn quantile (Set.Ioo 0 1) := by
  have hle : ∀ q, 0 < q → q ≤ 1 / 2 → lowerQuantile q ≤ 0 := by
    intro q h0 h1
    rw [← lowerQuantile_half]
    exact lowerQuantile_strictMono.monotoneOn ⟨h0, h1⟩ ⟨by norm_num, le_rfl⟩ h1
  have hlt : ∀ q, 0 < q → q < 1 / 2 → lowerQuantile q < 0 := by
    intro q h0 h1
    rw [← lowerQuantile_half]
    exact lowerQuantile_strictMono ⟨h0, h1.le⟩ ⟨by norm_num, le_rfl⟩ h1
  intro p hp q hq hpq
  unfold quantile
  by_cases h1 : 1 / 2 < p
  · rw [if_pos h1, if_pos (h1.trans hpq)]
    have := lowerQuantile_strictMono (a := 1 - q) (b := 1 - p) ⟨by linarith [hq.2], by linarith⟩
      ⟨by linarith [hp.2], by linarith⟩ (by linarith)
    linarith
  · rw [if_neg h1]
    by_cases h2 : 1 / 2 < q
    · rw [if_pos h2]
      have a := hle p hp.1 (not_lt.mp h1)
      have b := hlt (1 - q) (by linarith [hq.2]) (by linarith)
      linarith
    · rw [if_neg h2]
      exact lowerQuantile_strictMono ⟨hp.1, not_lt.mp h1⟩ ⟨hq.1, not_lt.mp h2⟩ hpq

/-- **C43.** `inv_cdf` throws `invalid_argument` exactly when `q ≤ 0` or `q ≥ 1`; it has no other
outcome than this and returning. -/
theorem C43_domain {F : Type} [Fl F] [Add F] [Sub F] [Mul F] [Div F] [Neg F] (q : F) :
    ((moroInvCdf q).Throws .invalidArgument ↔ (Fl.le q (lit 0) = true ∨ Fl.le (lit 1) q = true)) ∧
    ((moroInvCdf q).Throws .invalidArgument ∨ ∃ x, moroInvCdf q = .ok x) := by
  unfold moroInvCdf
  by_cases h : (Fl.le q (lit 0) || Fl.ge q (lit 1)) = true
  · rw [if_pos h]
    refine ⟨⟨fun _ => by simpa [Fl.ge] using h, fun _ => ⟨_, rfl⟩⟩, Or.inl ⟨_, rfl⟩⟩
  · rw [if_neg h]
    have h' : ¬ (Fl.le q (lit 0) = true ∨ Fl.le (lit 1) q = true) := by simpa [Fl.ge] using h
    dsimp only
    split <;> split <;>
      exact ⟨⟨fun ⟨_, e⟩ => by simp at e, fun e => absurd e h'⟩, Or.inr ⟨_, rfl⟩⟩

/-- **C43.** In exact arithmetic `inv_cdf` is on `(0, 1)` a strictly increasing function, antisymmetric
about `1/2`, hence zero there, negative below and positive above, and unbounded at both ends. -/
theorem C43_quantile : ∃ f : ℝ → ℝ, (∀ q, 0 < q → q < 1 → moroInvCdf q = .ok (f q)) ∧
    StrictMonoOn f (Set.Ioo 0 1) ∧ (∀ q, 0 < q → q < 1 → f (1 - q) = -f q) ∧ f (1 / 2) = 0 ∧
    (∀ q, 0 < q → q < 1 / 2 → f q < 0) ∧ (∀ q, 1 / 2 < q → q < 1 → 0 < f q) ∧
    ∀ B : ℝ, ∃ q, 0 < q ∧ q < 1 ∧ B < f q := by
  have hh : quantile (1 / 2) = 0 := by rw [quantile, if_neg (lt_irrefl _), lowerQuantile_half]
  refine ⟨quantile, fun q h0 h1 => moroInvCdf_real h0 h1, quantile_strictMono, fun q _ _ => quantile_symm,
    hh, fun q h0 h1 => ?_, fun q h0 h1 => ?_, fun B => ?_⟩
  · rw [← hh]; exact quantile_strictMono ⟨h0, by linarith⟩ ⟨by norm_num, by norm_num⟩ h1
  · rw [← hh]; exact quantile_strictMono ⟨by norm_num, by norm_num⟩ ⟨by linarith, h1⟩ h0
  · -- far in the tail
    let r := max (2 * B) 2
    have hr2 : 2 ≤ r := le_max_right _ _
    have hr : 0 < r := by linarith
    let u := Real.exp (-Real.exp r)
    have hu0 : 0 < u := Real.exp_pos _
    have hrr : Real.log (-Real.log u) = r := by simp [u]
    have hu8 : u ≤ 8 / 100 := by
      have h1 : r + 1 ≤ Real.exp r := Real.add_one_le_exp r
      have h2 : u ≤ Real.exp (-3) := Real.exp_le_exp.mpr (by linarith)
      have h3 : Real.exp 3 = Real.exp (1 / 4) ^ 12 := by rw [← Real.exp_nat_mul]; norm_num
      have h4 : (5 / 4 : ℝ) ^ 12 ≤ Real.exp (1 / 4) ^ 12 :=
        pow_le_pow_left₀ (by norm_num) (by linarith [Real.add_one_le_exp (1 / 4 : ℝ)]) 12
      rw [Real.exp_neg] at h2
      refine h2.trans ?_
      rw [inv_le_comm₀ (Real.exp_pos 3) (by norm_num), h3]
      exact le_trans (by norm_num) h4
    refine ⟨1 - u, by linarith, by linarith, ?_⟩
    rw [quantile_symm, quantile, if_neg (by linarith), lowerQuantile, if_neg (not_lt.mpr hu8), neg_neg, hrr]
    have hB : 2 * B ≤ r := le_max_left _ _
    have hp : 9 / 10 * r ≤ moroTailPoly r := by
      obtain ⟨X, hX, e⟩ : ∃ X : ℝ, 0 ≤ X ∧ moroTailPoly r = 3374754822726147 / 10000000000000000 +
          r * (9761690190917186 / 10000000000000000 + r * X) := by
        refine ⟨1607979714918209 / 10000000000000000 + r * (276438810333863 / 10000000000000000 +
          r * (38405729373609 / 10000000000000000 + r * (3951896511919 / 10000000000000000 +
          r * (321767881768 / 10000000000000000 + r * (2888167364 / 10000000000000000 +
          r * (3960315187 / 10000000000000000)))))), by positivity, ?_⟩
        simp only [moroTailPoly, Fl.lit_real]
        push_cast
        ring
      rw [e]
      have : 0 ≤ r * (r * X) := by positivity
      nlinarith
    linarith

/-- NaN passes the test of the domain and is returned. -/
theorem C43_nan (R : Rounding) : moroInvCdf (Dbl.nan : Dbl R) = .ok .nan := by
  rfl

example : ∃ x y : ℝ, moroInvCdf (1 / 10) = .ok x ∧ moroInvCdf (9 / 10) = .ok y ∧ x < 0 ∧ y = -x := by
  obtain ⟨f, h1, -, h3, -, h5, -⟩ := C43_quantile
  refine ⟨f (1 / 10), f (9 / 10), h1 _ (by norm_num) (by norm_num), h1 _ (by norm_num) (by norm_num),
    h5 _ (by norm_num) (by norm_num), ?_⟩
  rw [← h3 _ (by norm_num) (by norm_num)]
  norm_num

end Verif
