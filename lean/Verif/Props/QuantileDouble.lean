import Verif.Lemmas.QuantileRounding
import Verif.Lemmas.FdmRounding

/-!
# Property C94: the accuracy of `inv_cdf` in double precision
-/

set_option exponentiation.threshold 3000

namespace Verif
open MeasureTheory ProbabilityTheory Spec PolyCheck

/-! ## Facts about binary64 -/

theorem binary64_close {x : ℝ} (h : |x| ≤ 2 ^ (1000 : ℤ)) : ∃ y : ℝ, Rounding.binary64.rnd x = (y : EReal) ∧ |y - x| ≤ 2 ^ (-53 : ℤ) * |x| + 2 ^ (-1075 : ℤ) :=
  binary64_doubleAccurate.round x h

theorem binary64_half : Rounding.binary64.rnd (1 / 2) = ((1 / 2 : ℝ) : EReal) := by
  have := Binary64.rnd_eq (x := 1 / 2) (-53) (2 ^ 52) (by norm_num) (by norm_num) (by rw [abs_of_pos] <;> norm_num) (by rw [abs_of_pos] <;> norm_num)
    (by norm_num) (by norm_num) (by norm_num)
  rw [show Rounding.binary64.rnd (1 / 2) = Binary64.rnd (1 / 2) from rfl, this]
  norm_num

/-- Integers of 53 bits times a power of two are doubles. -/
theorem binary64_scaled {n : ℕ} (hn : n ≤ 2 ^ 53) {e : ℤ} (he : -1000 ≤ e) (he' : e ≤ 0) :
    Rounding.binary64.rnd ((n : ℝ) * 2 ^ e) = (((n : ℝ) * 2 ^ e : ℝ) : EReal) := by
  have hn' : (n : ℝ) ≤ 2 ^ (53 : ℤ) := by exact_mod_cast hn
  have hp : (0 : ℝ) < 2 ^ e := by positivity
  have hp1 : (2 : ℝ) ^ e ≤ 1 := zpow_le_one_of_nonpos₀ (by norm_num) he'
  have hle : (n : ℝ) * 2 ^ e ≤ 2 ^ (53 + e) := by
    rw [zpow_add₀ (by norm_num)]
    gcongr
  have hr : Binary64.round53 ((n : ℝ) * 2 ^ e) = n * 2 ^ e := by
    rcases Nat.eq_zero_or_pos n with rfl | hpn
    · simp
    have hp' : (0 : ℝ) < n * 2 ^ e := mul_pos (by exact_mod_cast hpn) hp
    rcases lt_or_eq_of_le hle with hlt | heq
    · have hu : Binary64.ulpExp ((n : ℝ) * 2 ^ e) ≤ e := by
        unfold Binary64.ulpExp
        rw [abs_of_pos hp']
        have := (zpow_lt_zpow_iff_right₀ (a := (2 : ℝ)) (by norm_num)).mp ((Binary64.log_le hp').trans_lt hlt)
        omega
      refine Binary64.round53_eq_of_multiple (m := n * 2 ^ (e - Binary64.ulpExp ((n : ℝ) * 2 ^ e)).toNat) ?_
      generalize Binary64.ulpExp ((n : ℝ) * 2 ^ e) = w at *
      push_cast
      rw [← zpow_natCast, Int.toNat_of_nonneg (by omega), mul_assoc, ← zpow_add₀ (by norm_num)]
      congr 2
      ring
    · have b := Binary64.round53_binade hp' (k := 53 + e) (by omega)
      exact le_antisymm ((b.1 hle).trans heq.ge) (heq.le.trans (b.2 heq.ge))
  rw [show Rounding.binary64.rnd ((n : ℝ) * 2 ^ e) = Binary64.rnd ((n : ℝ) * 2 ^ e) from rfl, Binary64.rnd_of_abs_lt, hr]
  rw [hr, abs_of_nonneg (by positivity)]
  exact hle.trans_lt (zpow_lt_zpow_right₀ (by norm_num) (by omega))

/-- Rounding gives a double. -/
theorem binary64_idem {x y : ℝ} (h0 : 2 ^ (-900 : ℤ) ≤ x) (h1 : x ≤ 1) (h : Rounding.binary64.rnd x = (y : EReal)) : Rounding.binary64.rnd y = (y : EReal) := by
  have hx : 0 < x := lt_of_lt_of_le (by positivity) h0
  have h' : Binary64.rnd x = (y : EReal) := h
  have hy : y = Binary64.round53 x := by
    unfold Binary64.rnd at h'
    split at h'
    · exact (EReal.coe_eq_coe_iff.mp h').symm
    · simp at h'
  have l0 : -901 ≤ Int.log 2 x := by
    have := (zpow_lt_zpow_iff_right₀ (a := (2 : ℝ)) (by norm_num)).mp (h0.trans_lt (Binary64.lt_log (x := x)))
    omega
  have l1 : Int.log 2 x ≤ 0 := by
    have := (zpow_le_zpow_iff_right₀ (a := (2 : ℝ)) (m := Int.log 2 x) (n := 0) (by norm_num)).mp ((Binary64.log_le hx).trans (by simpa using h1))
    exact this
  have hu : Binary64.ulpExp x = Int.log 2 x - 52 := by
    unfold Binary64.ulpExp
    rw [abs_of_pos hx]
    omega
  have hp := Binary64.ulp_pos x
  have n0 : 0 ≤ Binary64.nearest (x / 2 ^ Binary64.ulpExp x) := by
    have := Binary64.nearest_mono (show ((0 : ℤ) : ℝ) ≤ x / 2 ^ Binary64.ulpExp x by rw [Int.cast_zero]; positivity)
    rwa [Binary64.nearest_intCast] at this
  have n1 : Binary64.nearest (x / 2 ^ Binary64.ulpExp x) ≤ 2 ^ 53 := by
    have := Binary64.nearest_mono (show x / 2 ^ Binary64.ulpExp x ≤ ((2 ^ 53 : ℤ) : ℝ) by
      rw [div_le_iff₀ hp, hu]
      refine (Binary64.lt_log (x := x)).le.trans (le_of_eq ?_)
      rw [show Int.log 2 x + 1 = 53 + (Int.log 2 x - 52) by ring, zpow_add₀ (by norm_num)]
      norm_num)
    rwa [Binary64.nearest_intCast] at this
  obtain ⟨n, hn⟩ := Int.eq_ofNat_of_zero_le n0
  have hy' : y = (n : ℝ) * 2 ^ Binary64.ulpExp x := by
    rw [hy, Binary64.round53, hn]
    norm_cast
  rw [hy']
  exact binary64_scaled (by omega) (by omega) (by omega)

/-- A double is a multiple of its last place. -/
theorem binary64_multiple {q : ℝ} (h : Rounding.binary64.rnd q = (q : EReal)) : ∃ m : ℤ, q = m * 2 ^ Binary64.ulpExp q := by
  have h' : Binary64.rnd q = (q : EReal) := h
  unfold Binary64.rnd at h'
  split at h'
  · exact ⟨_, (EReal.coe_eq_coe_iff.mp h').symm⟩
  · split at h' <;> simp at h'

/-- Positive doubles are at least `2⁻¹⁰⁷⁴`. -/
theorem binary64_min {q : ℝ} (h : Rounding.binary64.rnd q = (q : EReal)) (h0 : 0 < q) : (2 : ℝ) ^ (-1074 : ℤ) ≤ q := by
  obtain ⟨m, e⟩ := binary64_multiple h
  have hu := Binary64.ulp_pos q
  have hm : 0 < m := by
    by_contra hc
    have : (m : ℝ) ≤ 0 := by exact_mod_cast not_lt.mp hc
    nlinarith
  have hm' : (1 : ℝ) ≤ m := by exact_mod_cast hm
  calc (2 : ℝ) ^ (-1074 : ℤ) ≤ 2 ^ Binary64.ulpExp q := zpow_le_zpow_right₀ (by norm_num) (le_max_right _ _)
    _ = 1 * 2 ^ Binary64.ulpExp q := (one_mul _).symm
    _ ≤ m * 2 ^ Binary64.ulpExp q := by gcongr
    _ = q := e.symm

/-- `1 - q` is exact for a double between one half and one. -/
theorem binary64_compl {q : ℝ} (h : Rounding.binary64.rnd q = (q : EReal)) (h0 : 1 / 2 < q) (h1 : q < 1) :
    Rounding.binary64.rnd (1 - q) = ((1 - q : ℝ) : EReal) ∧ (2 : ℝ) ^ (-53 : ℤ) ≤ 1 - q := by
  obtain ⟨m, e⟩ := binary64_multiple h
  have hu : Binary64.ulpExp q = -53 := by
    unfold Binary64.ulpExp
    rw [Binary64.log_eq (k := -1)]
    · norm_num
    · rw [abs_of_pos (by linarith)]; norm_num; linarith
    · rw [abs_of_pos (by linarith)]; norm_num; linarith
  rw [hu] at e
  have c : (2 : ℝ) ^ (53 : ℤ) * 2 ^ (-53 : ℤ) = 1 := by norm_num
  have hm0 : 0 < m := by
    by_contra hc
    have : (m : ℝ) ≤ 0 := by exact_mod_cast not_lt.mp hc
    nlinarith [(by positivity : (0 : ℝ) < 2 ^ (-53 : ℤ))]
  have hm1 : m < 2 ^ 53 := by
    by_contra hc
    have : (2 : ℝ) ^ (53 : ℤ) ≤ m := by exact_mod_cast not_lt.mp hc
    nlinarith [(by positivity : (0 : ℝ) < 2 ^ (-53 : ℤ))]
  obtain ⟨n, hn⟩ := Int.eq_ofNat_of_zero_le (show 0 ≤ 2 ^ 53 - m by omega)
  have e' : 1 - q = (n : ℝ) * 2 ^ (-53 : ℤ) := by
    have : (n : ℝ) = 2 ^ (53 : ℤ) - m := by
      have : ((n : ℤ) : ℝ) = ((2 ^ 53 - m : ℤ) : ℝ) := by rw [hn]
      push_cast at this
      rw [this]
      norm_num
    rw [this, sub_mul, c, ← e]
  have hn1 : 1 ≤ n := by omega
  refine ⟨?_, ?_⟩
  · rw [e']; exact binary64_scaled (by omega) (by norm_num) (by norm_num)
  · rw [e']
    have : (1 : ℝ) ≤ n := by exact_mod_cast hn1
    calc (2 : ℝ) ^ (-53 : ℤ) = 1 * 2 ^ (-53 : ℤ) := (one_mul _).symm
      _ ≤ n * 2 ^ (-53 : ℤ) := by gcongr

theorem Phi_lipschitz (a b : ℝ) : |Phi a - Phi b| ≤ |a - b| / 2 := by
  have := Convex.norm_image_sub_le_of_norm_hasDerivWithin_le (f := Phi) (f' := gaussianPDFReal 0 1) (C := 1 / 2) (s := Set.univ)
    (fun x _ => (hasDerivAt_Phi x).hasDerivWithinAt) (fun x _ => by
      rw [Real.norm_eq_abs, abs_of_nonneg (gaussianPDFReal_nonneg 0 1 x)]
      exact pdf_le x) convex_univ (Set.mem_univ b) (Set.mem_univ a)
  rw [Real.norm_eq_abs, Real.norm_eq_abs] at this
  linarith

/-! ## The two branches -/

theorem sub_half_close {p : ℝ} (h0 : 0 < p) (h1 : p ≤ 1 / 2) : ∃ x : ℝ, (Dbl.num p - lit (1 / 2) : Dbl .binary64) = .num x ∧ x ≤ 0 ∧ |x - (p - 1 / 2)| ≤ 2 ^ (-53 : ℤ) := by
  have e : (lit (1 / 2) : Dbl .binary64) = .num ((1 / 2 : ℝ) : EReal) := by
    rw [Dbl.lit_def, ← binary64_half]
    norm_num
  have ha : |p - 1 / 2| ≤ 1 / 2 := abs_le.mpr ⟨by linarith, by linarith⟩
  obtain ⟨x, e1, b⟩ := binary64_close (x := p - 1 / 2) (ha.trans (by norm_num))
  refine ⟨x, by rw [e, Dbl.sub_coe, e1], ?_, b.trans ?_⟩
  · have := Rounding.binary64.mono (show p - 1 / 2 ≤ 0 by linarith)
    rw [e1, Rounding.binary64.zero] at this
    exact_mod_cast this
  · calc _ ≤ (2 : ℝ) ^ (-53 : ℤ) * (1 / 2) + 2 ^ (-55 : ℤ) := add_le_add (mul_le_mul_of_nonneg_left ha (by positivity)) (zpow_le_zpow_right₀ (by norm_num) (by norm_num))
      _ ≤ _ := by norm_num

theorem bound_close : ∃ c : ℝ, (lit (42 / 100) : Dbl .binary64) = .num c ∧ |c - 42 / 100| ≤ 2 ^ (-54 : ℤ) := by
  obtain ⟨x, e1, b⟩ := binary64_close (x := 42 / 100) (by rw [abs_of_pos (by norm_num)]; norm_num)
  refine ⟨x, by rw [Dbl.lit_def, ← e1]; norm_num, b.trans ?_⟩
  rw [abs_of_pos (by norm_num)]
  calc _ ≤ (2 : ℝ) ^ (-53 : ℤ) * (42 / 100) + 2 ^ (-60 : ℤ) := add_le_add le_rfl (zpow_le_zpow_right₀ (by norm_num) (by norm_num))
    _ ≤ _ := by norm_num

theorem central_double {p x : ℝ} (hx : |x - (p - 1 / 2)| ≤ 2 ^ (-53 : ℤ)) (hb : |x| ≤ 42 / 100 + 2 ^ (-54 : ℤ)) :
    ∃ z : ℝ, moroCentral (.num x : Dbl .binary64) = .num z ∧ |Phi z - p| ≤ 6 / 10000000000 := by
  obtain ⟨x', h1, h2, h3⟩ : ∃ x' : ℝ, |x'| ≤ 42 / 100 ∧ |x - x'| ≤ 2 ^ (-54 : ℤ) ∧ Nr 0 4 |x'| (.num x) x' := by
    by_cases h : |x| ≤ 42 / 100
    · exact ⟨x, h, by rw [sub_self, abs_zero]; positivity, (Nr.exact x).weaken le_rfl (by norm_num)⟩
    · have key : ∀ s : ℝ, |s| = 42 / 100 → |x - s| ≤ 2 ^ (-54 : ℤ) → Nr 0 4 |s| (.num x) s := by
        intro s hs hc
        refine Nr.of_close (hc.trans ?_)
        rw [hs]; norm_num
      rcases abs_cases x with ⟨e, hx0⟩ | ⟨e, hx0⟩
      · have c : |x - 42 / 100| ≤ 2 ^ (-54 : ℤ) := by rw [abs_of_pos (by linarith)]; linarith
        exact ⟨42 / 100, by rw [abs_of_pos] <;> norm_num, c, key _ (by rw [abs_of_pos]; norm_num) c⟩
      · have c : |x - -(42 / 100)| ≤ 2 ^ (-54 : ℤ) := by rw [abs_of_neg (by linarith)]; linarith
        exact ⟨-(42 / 100), by rw [abs_neg, abs_of_pos] <;> norm_num, c, key _ (by rw [abs_neg, abs_of_pos]; norm_num) c⟩
  obtain ⟨z, e, b⟩ := central_near h3 h1
  refine ⟨z, e, ?_⟩
  have a1 := Phi_lipschitz z (moroCentral x')
  have a2 := Central.error h1
  have n1 : (2 : ℝ) ^ (-53 : ℤ) ≤ 1 / 100000000000 := by norm_num
  have n2 : (2 : ℝ) ^ (-54 : ℤ) ≤ 1 / 100000000000 := by norm_num
  obtain ⟨_, _⟩ := abs_le.mp a1
  obtain ⟨_, _⟩ := abs_le.mp a2
  obtain ⟨_, _⟩ := abs_le.mp (hx.trans n1)
  obtain ⟨_, _⟩ := abs_le.mp (h2.trans n2)
  rw [abs_le]
  constructor <;> linarith

theorem log_close {M L e : ℝ} (hL : 0 < L) (he0 : 0 ≤ e) (he : e ≤ 1 / 20) (h : |M - L| ≤ e * L) : 0 < M ∧ |Real.log M - Real.log L| ≤ 20 / 19 * e := by
  obtain ⟨a, b⟩ := abs_le.mp h
  have hM : (1 - e) * L ≤ M := by linarith
  have hM0 : 0 < M := lt_of_lt_of_le (mul_pos (by linarith) hL) hM
  refine ⟨hM0, abs_le.mpr ⟨?_, ?_⟩⟩
  · have := Real.log_le_sub_one_of_pos (div_pos hL hM0)
    rw [Real.log_div hL.ne' hM0.ne'] at this
    have c : L / M ≤ 1 + 20 / 19 * e := by
      rw [div_le_iff₀ hM0]
      have : (1 + 20 / 19 * e) * ((1 - e) * L) ≤ (1 + 20 / 19 * e) * M := mul_le_mul_of_nonneg_left hM (by linarith)
      have : 0 ≤ (1 / 19 * e - 20 / 19 * (e * e)) * L := mul_nonneg (by nlinarith) hL.le
      nlinarith
    linarith
  · have := Real.log_le_sub_one_of_pos (div_pos hM0 hL)
    rw [Real.log_div hM0.ne' hL.ne'] at this
    have c : M / L ≤ 1 + e := by
      rw [div_le_iff₀ hL]; linarith
    nlinarith

theorem Dbl.log_coe {x : ℝ} (h : 0 < x) : Fl.log (Dbl.num (x : EReal) : Dbl .binary64) = .num (Rounding.binary64.rnd (Real.log x)) := by
  change (if x < 0 then _ else if x = 0 then _ else _) = _
  rw [if_neg (not_lt.mpr h.le), if_neg h.ne']
  rfl

theorem tail_double {p : ℝ} (h0 : 2 ^ (-1074 : ℤ) ≤ p) (hp : p ≤ 8 / 100 + 2 ^ (-52 : ℤ)) :
    ∃ z : ℝ, moroTailPoly (Fl.log (-(Fl.log (.num p : Dbl .binary64)))) = .num z ∧ |Phi (-z) - p| ≤ 6 / 10000000000 ∧ |z| ≤ 51 ∧ (2 ^ (-65 : ℤ) ≤ p → |z| ≤ 10) := by
  have hp0 : 0 < p := lt_of_lt_of_le (by positivity) h0
  obtain ⟨p', hp'0, hp'8, hpp, hp'e, hmin⟩ : ∃ p' : ℝ, 0 < p' ∧ p' ≤ 8 / 100 ∧ |p' - p| ≤ 2 ^ (-52 : ℤ) ∧ (2 ^ (-65 : ℤ) ≤ p → 2 ^ (-65 : ℤ) ≤ p') ∧ |Real.log p - Real.log p'| ≤ 27 * 2 ^ (-53 : ℤ) ∧ 2 ^ (-1074 : ℤ) ≤ p' := by
    by_cases h : p ≤ 8 / 100
    · exact ⟨p, hp0, h, by rw [sub_self, abs_zero]; positivity, id, by rw [sub_self, abs_zero]; positivity, h0⟩
    · have c : |p - 8 / 100| ≤ 2 ^ (-52 : ℤ) := by rw [abs_of_pos (by linarith)]; linarith
      refine ⟨8 / 100, by norm_num, le_rfl, by rwa [abs_sub_comm], fun _ => by norm_num, ?_, ?_⟩
      · have := (log_close (M := p) (L := 8 / 100) (e := 2 ^ (-52 : ℤ) / (8 / 100)) (by norm_num) (by positivity) (by norm_num) (by rw [div_mul_cancel₀ _ (by norm_num)]; exact c)).2
        exact this.trans (by norm_num)
      · exact (zpow_le_zpow_right₀ (by norm_num) (by norm_num : (-1074 : ℤ) ≤ -4)).trans (by norm_num)
  -- the first logarithm
  have l2 := Real.log_two_lt_d9
  have lp : ∀ t : ℝ, 2 ^ (-1074 : ℤ) ≤ t → -745 ≤ Real.log t := by
    intro t ht
    have := Real.log_le_log (by positivity) ht
    rw [Real.log_zpow] at this
    push_cast at this
    linarith
  have L0 : Real.log (25 / 2) ≤ -Real.log p' := by
    have := Real.log_le_log hp'0 hp'8
    rw [← Tail.neg_log_eq]; linarith
  have hL25 : 25 / 10 ≤ -Real.log p' := by
    have := Tail.ell_lo
    linarith
  set L := -Real.log p' with hLdef
  have hL745 : L ≤ 745 := by have := lp p' hmin.2; linarith
  have habs : |Real.log p| ≤ 746 := by
    obtain ⟨_, _⟩ := abs_le.mp (hmin.1.trans (by norm_num : (27 : ℝ) * 2 ^ (-53 : ℤ) ≤ 1))
    have := lp p h0
    rw [abs_le]
    constructor <;> linarith
  obtain ⟨l, el, bl⟩ := binary64_close (x := Real.log p) (habs.trans (by norm_num))
  have e1 : -(Fl.log (.num p : Dbl .binary64)) = .num ((-l : ℝ) : EReal) := by
    rw [Dbl.log_coe hp0, el, EReal.coe_neg]; rfl
  have hML : |-l - L| ≤ (12 * 2 ^ (-53 : ℤ)) * L := by
    have a1 : |Real.log p| ≤ L + 27 * 2 ^ (-53 : ℤ) := by
      have := abs_add_le (Real.log p - Real.log p') (Real.log p')
      rw [sub_add_cancel] at this
      rw [show |Real.log p'| = L by rw [hLdef, abs_of_neg (by linarith)]] at this
      linarith [hmin.1]
    have a2 : (2 : ℝ) ^ (-1075 : ℤ) ≤ 2 ^ (-60 : ℤ) := zpow_le_zpow_right₀ (by norm_num) (by norm_num)
    have a3 : (2 : ℝ) ^ (-53 : ℤ) * |Real.log p| ≤ 2 ^ (-53 : ℤ) * (L + 27 * 2 ^ (-53 : ℤ)) := mul_le_mul_of_nonneg_left a1 (by positivity)
    have a4 : |-l - L| ≤ |l - Real.log p| + |Real.log p - Real.log p'| := by
      have := abs_add_le (l - Real.log p) (Real.log p - Real.log p')
      rw [sub_add_sub_cancel] at this
      rwa [show -l - L = -(l - Real.log p') by rw [hLdef]; ring, abs_neg]
    have := hmin.1
    norm_num at *
    linarith
  obtain ⟨hM0, hlog⟩ := log_close (by linarith) (by positivity) (by norm_num) hML
  -- the second logarithm
  have r0 : Tail.r0 ≤ Real.log L := by
    unfold Tail.r0
    refine Real.log_le_log ?_ ?_
    · rw [Tail.neg_log_eq]; exact Tail.ell_pos
    · rw [Tail.neg_log_eq]; exact L0
  have r9 : 926 / 1000 ≤ Real.log L := by linarith [Tail.r0_mem.1]
  have r7 : Real.log L ≤ 695 / 100 := by
    have h1 : Real.log L ≤ Real.log (2 ^ 10) := Real.log_le_log (by linarith) (by linarith [(by norm_num : (745 : ℝ) ≤ 2 ^ 10)])
    rw [Real.log_pow] at h1
    push_cast at h1
    linarith
  set r := Real.log L with hr
  have habs2 : |Real.log (-l)| ≤ r + 13 * 2 ^ (-53 : ℤ) := by
    have n : 20 / 19 * (12 * (2 : ℝ) ^ (-53 : ℤ)) ≤ 13 * 2 ^ (-53 : ℤ) := by norm_num
    have n' : 13 * (2 : ℝ) ^ (-53 : ℤ) ≤ 1 / 1000 := by norm_num
    obtain ⟨_, _⟩ := abs_le.mp (hlog.trans n)
    rw [abs_le]
    constructor <;> linarith
  obtain ⟨w, ew, bw⟩ := binary64_close (x := Real.log (-l)) (habs2.trans (by norm_num; linarith))
  have e2 : Fl.log (-(Fl.log (.num p : Dbl .binary64))) = .num (w : EReal) := by
    rw [e1, Dbl.log_coe hM0, ew]
  have near : Nr 0 17 r (.num w) r := by
    have := Nr.of_close (k := 17) (x := r) (z := w) (by
      rw [abs_of_pos (by linarith : 0 < r)]
      have a2 : (2 : ℝ) ^ (-1075 : ℤ) ≤ 2 ^ (-60 : ℤ) := zpow_le_zpow_right₀ (by norm_num) (by norm_num)
      have a3 : (2 : ℝ) ^ (-53 : ℤ) * |Real.log (-l)| ≤ 2 ^ (-53 : ℤ) * (r + 13 * 2 ^ (-53 : ℤ)) := mul_le_mul_of_nonneg_left habs2 (by positivity)
      have := abs_sub_le w (Real.log (-l)) r
      norm_num at *
      linarith)
    rwa [abs_of_pos (by linarith : 0 < r)] at this
  have tn := tail_near near (by linarith) (by linarith) (by norm_num)
  obtain ⟨z, ez, bz⟩ := tn.error (by norm_num) (by norm_num)
  have sz := tail_size (r := r) (by linarith) (by linarith)
  refine ⟨z, by rw [e2, ez], ?_⟩
  have sz' : 2 ^ (-65 : ℤ) ≤ p → moroTailPoly r ≤ 99 / 10 := by
    intro h
    refine tail_size' (by linarith) ?_
    have h1 : L ≤ 4506 / 100 := by
      have := Real.log_le_log (by positivity) (hp'e h)
      rw [Real.log_zpow] at this
      push_cast at this
      linarith
    have h2 : 2 * r = Real.log (L * L) := by rw [Real.log_mul (by linarith) (by linarith)]; ring
    have h3 : Real.log (L * L) ≤ Real.log (2 ^ 11) := Real.log_le_log (mul_pos (by linarith) (by linarith)) (by nlinarith)
    rw [Real.log_pow] at h3
    push_cast at h3
    linarith
  have a1 := Phi_lipschitz (-z) (-moroTailPoly r)
  have a2 := Tail.error r0
  rw [← Tail.tail_eq, hr, Real.exp_log (by linarith), hLdef, neg_neg, Real.exp_log hp'0, ← hLdef, ← hr] at a2
  have a3 : |z - moroTailPoly r| ≤ 1 / 100000000000 := by
    refine bz.trans ?_
    norm_num at *
    linarith
  rw [show -z - -moroTailPoly r = -(z - moroTailPoly r) by ring, abs_neg] at a1
  have n1 : (2 : ℝ) ^ (-52 : ℤ) ≤ 1 / 100000000000 := by norm_num
  obtain ⟨_, _⟩ := abs_le.mp a1
  obtain ⟨_, _⟩ := abs_le.mp a2
  obtain ⟨_, _⟩ := abs_le.mp (hpp.trans n1)
  obtain ⟨_, _⟩ := abs_le.mp a3
  refine ⟨?_, ?_, fun h => ?_⟩
  · rw [abs_le]
    constructor <;> linarith
  · rw [abs_le]
    constructor <;> linarith
  · have := sz' h
    rw [abs_le]
    constructor <;> linarith

/-- How large the normal number of a central probability can be. -/
theorem central_size {z p : ℝ} (h : |Phi z - p| ≤ 6 / 10000000000) (h0 : 7 / 100 ≤ p) (h1 : p ≤ 93 / 100) : |z| ≤ 10 := by
  obtain ⟨t, -, t1, -, t2⟩ := tail_double (p := 1 / 20) (le_trans (zpow_le_zpow_right₀ (by norm_num) (by norm_num : (-1074 : ℤ) ≤ -5)) (by norm_num)) (by norm_num)
  obtain ⟨t3, t4⟩ := abs_le.mp (t2 (by norm_num))
  obtain ⟨_, _⟩ := abs_le.mp t1
  obtain ⟨_, _⟩ := abs_le.mp h
  rw [abs_le]
  constructor
  · by_contra hc
    have := Phi_mono (by linarith : z ≤ -t)
    linarith
  · by_contra hc
    have := Phi_mono (by linarith : -z ≤ -t)
    rw [Phi_neg z] at this
    linarith

/-! ## The properties -/

/-- The two branches at a number of the lower half. -/
theorem lower_double {p : ℝ} (h0 : 2 ^ (-1074 : ℤ) ≤ p) (h1 : p ≤ 1 / 2) :
    (Fl.lt (Fl.fabs (.num p - lit (1 / 2) : Dbl .binary64)) (lit (42 / 100)) = true →
      ∃ z : ℝ, moroCentral (.num p - lit (1 / 2) : Dbl .binary64) = .num z ∧ |Phi z - p| ≤ 6 / 10000000000 ∧ |z| ≤ 51 ∧ (2 ^ (-65 : ℤ) ≤ p → |z| ≤ 10)) ∧
    (Fl.lt (Fl.fabs (.num p - lit (1 / 2) : Dbl .binary64)) (lit (42 / 100)) = false →
      ∃ z : ℝ, moroTailPoly (Fl.log (-(Fl.log (.num p : Dbl .binary64)))) = .num z ∧ |Phi (-z) - p| ≤ 6 / 10000000000 ∧ |z| ≤ 51 ∧ (2 ^ (-65 : ℤ) ≤ p → |z| ≤ 10)) := by
  have hp0 : 0 < p := lt_of_lt_of_le (by positivity) h0
  obtain ⟨x, ex, hx0, bx⟩ := sub_half_close hp0 h1
  obtain ⟨c, ec, bc⟩ := bound_close
  have ef : Fl.fabs (Dbl.num (x : EReal) : Dbl .binary64) = .num ((-x : ℝ) : EReal) := by
    change Dbl.num (max (x : EReal) (-(x : EReal))) = _
    rw [← EReal.coe_neg, max_eq_right (by exact_mod_cast (by linarith : x ≤ -x))]
  rw [ex, ec, ef]
  obtain ⟨_, _⟩ := abs_le.mp bc
  constructor
  · intro h
    rw [Dbl.lt_num, EReal.coe_lt_coe_iff] at h
    have hx1 : |x| ≤ 42 / 100 + 2 ^ (-54 : ℤ) := by
      rw [abs_of_nonpos hx0]
      linarith
    obtain ⟨z, e, b⟩ := central_double bx hx1
    have n1 : (42 / 100 : ℝ) + 2 ^ (-54 : ℤ) ≤ 4201 / 10000 := by norm_num
    have n2 : (2 : ℝ) ^ (-53 : ℤ) ≤ 1 / 10000 := by norm_num
    obtain ⟨_, _⟩ := abs_le.mp (hx1.trans n1)
    obtain ⟨_, _⟩ := abs_le.mp (bx.trans n2)
    have := central_size b (by linarith) (by linarith)
    exact ⟨z, e, b, by linarith, fun _ => this⟩
  · intro h
    rw [Dbl.lt_num_false, EReal.coe_le_coe_iff] at h
    refine tail_double h0 ?_
    obtain ⟨_, _⟩ := abs_le.mp bx
    have : (2 : ℝ) ^ (-53 : ℤ) + 2 ^ (-54 : ℤ) ≤ 2 ^ (-52 : ℤ) := by norm_num
    linarith

/-- `inv_cdf` in double precision, with the subtraction `1 - q` done. -/
theorem moroInvCdf_double {q : ℝ} (hq : Rounding.binary64.rnd q = (q : EReal)) (h0 : 0 < q) (h1 : q < 1) : moroInvCdf (.num q : Dbl .binary64) =
    if 1 / 2 < q then
      (if Fl.lt (Fl.fabs (.num ((1 - q : ℝ) : EReal) - lit (1 / 2) : Dbl .binary64)) (lit (42 / 100)) = true then
        .ok (-moroCentral (.num ((1 - q : ℝ) : EReal) - lit (1 / 2))) else .ok (moroTailPoly (Fl.log (-(Fl.log (.num ((1 - q : ℝ) : EReal)))))))
    else
      (if Fl.lt (Fl.fabs (.num q - lit (1 / 2) : Dbl .binary64)) (lit (42 / 100)) = true then
        .ok (moroCentral (.num q - lit (1 / 2))) else .ok (-moroTailPoly (Fl.log (-(Fl.log (.num q)))))) := by
  have a : (Fl.le (.num q : Dbl .binary64) (lit 0) || Fl.ge (.num q : Dbl .binary64) (lit 1)) = false := by
    rw [Bool.or_eq_false_iff]
    constructor
    · rw [Dbl.lit_zero, Dbl.le_num_false]; exact_mod_cast h0
    · rw [Dbl.lit_one]
      change Fl.le (.num 1 : Dbl .binary64) (.num q) = false
      rw [Dbl.le_num_false]; exact_mod_cast h1
  have e : (lit (1 / 2) : Dbl .binary64) = .num ((1 / 2 : ℝ) : EReal) := by
    rw [Dbl.lit_def, ← binary64_half]
    norm_num
  have b : Fl.gt (.num q : Dbl .binary64) (lit (1 / 2)) = decide (1 / 2 < q) := by
    rw [Bool.eq_iff_iff, e, Dbl.gt_num, EReal.coe_lt_coe_iff, decide_eq_true_iff]
  unfold moroInvCdf
  rw [a]
  simp only [Bool.false_eq_true, if_false, b, decide_eq_true_eq]
  by_cases h : 1 / 2 < q
  · have c : (lit 1 - .num q : Dbl .binary64) = .num ((1 - q : ℝ) : EReal) := by
      rw [Dbl.lit_one, show (1 : EReal) = ((1 : ℝ) : EReal) from rfl, Dbl.sub_coe, (binary64_compl hq h h1).1]
    simp only [if_pos h, c]
  · simp only [if_neg h]

theorem quantile_double {q : ℝ} (hq : Rounding.binary64.rnd q = (q : EReal)) (h0 : 0 < q) (h1 : q < 1) :
    ∃ z : ℝ, moroInvCdf (.num q : Dbl .binary64) = .ok (.num z) ∧ |Phi z - q| ≤ 6 / 10000000000 ∧ |z| ≤ 51 ∧ (2 ^ (-65 : ℤ) ≤ q → |z| ≤ 10) := by
  rw [moroInvCdf_double hq h0 h1]
  by_cases h : 1 / 2 < q
  · rw [if_pos h]
    have hc : (2 : ℝ) ^ (-65 : ℤ) ≤ 1 - q := (zpow_le_zpow_right₀ (by norm_num) (by norm_num)).trans (binary64_compl hq h h1).2
    obtain ⟨c1, c2⟩ := lower_double ((zpow_le_zpow_right₀ (by norm_num) (by norm_num)).trans (binary64_compl hq h h1).2) (by linarith)
    cases hb : Fl.lt (Fl.fabs (.num ((1 - q : ℝ) : EReal) - lit (1 / 2) : Dbl .binary64)) (lit (42 / 100))
    · obtain ⟨z, e, b, d1, d2⟩ := c2 hb
      refine ⟨z, by rw [if_neg (by simp), e], ?_, d1, fun _ => d2 hc⟩
      rw [Phi_neg] at b
      rwa [← abs_neg, show -(Phi z - q) = 1 - Phi z - (1 - q) by ring]
    · obtain ⟨z, e, b, d1, d2⟩ := c1 hb
      refine ⟨-z, by rw [if_pos rfl, e, EReal.coe_neg]; rfl, ?_, by rwa [abs_neg], fun _ => by rw [abs_neg]; exact d2 hc⟩
      rw [Phi_neg, ← abs_neg, show -(1 - Phi z - q) = Phi z - (1 - q) by ring]
      exact b
  · rw [if_neg h]
    obtain ⟨c1, c2⟩ := lower_double (binary64_min hq h0) (not_lt.mp h)
    cases hb : Fl.lt (Fl.fabs (.num q - lit (1 / 2) : Dbl .binary64)) (lit (42 / 100))
    · obtain ⟨z, e, b, d1, d2⟩ := c2 hb
      exact ⟨-z, by rw [if_neg (by simp), e, EReal.coe_neg]; rfl, b, by rwa [abs_neg], fun h => by rw [abs_neg]; exact d2 h⟩
    · obtain ⟨z, e, b, d⟩ := c1 hb
      exact ⟨z, by rw [if_pos rfl, e], b, d⟩

/-- **C94.** In double precision `inv_cdf` returns, for every double strictly between zero and one, a finite number whose normal
distribution function differs from the argument by at most six ten-billionths. -/
theorem C94_accuracy {q : ℝ} (hq : Rounding.binary64.rnd q = (q : EReal)) (h0 : 0 < q) (h1 : q < 1) :
    ∃ z : ℝ, moroInvCdf (.num q : Dbl .binary64) = .ok (.num z) ∧ |cdf (gaussianReal 0 1) z - q| ≤ 6 / 10000000000 := by
  obtain ⟨z, e, b, -⟩ := quantile_double hq h0 h1
  exact ⟨z, e, b⟩

/-- **C94.** Its results are never larger than 51 in absolute value, and not larger than 10 unless the argument is below `2⁻⁶⁵`. -/
theorem C94_size {q : ℝ} (hq : Rounding.binary64.rnd q = (q : EReal)) (h0 : 0 < q) (h1 : q < 1) :
    ∃ z : ℝ, moroInvCdf (.num q : Dbl .binary64) = .ok (.num z) ∧ |z| ≤ 51 ∧ (2 ^ (-65 : ℤ) ≤ q → |z| ≤ 10) := by
  obtain ⟨z, e, -, d⟩ := quantile_double hq h0 h1
  exact ⟨z, e, d⟩

/-- **C94.** For a double above one half, `inv_cdf` at the complementary probability is the same number with the opposite sign, bit
for bit. -/
theorem C94_symmetry {q : ℝ} (hq : Rounding.binary64.rnd q = (q : EReal)) (h0 : 1 / 2 < q) (h1 : q < 1) :
    ∃ z : ℝ, moroInvCdf (.num q : Dbl .binary64) = .ok (.num z) ∧ moroInvCdf (.num ((1 - q : ℝ) : EReal) : Dbl .binary64) = .ok (.num ((-z : ℝ) : EReal)) := by
  obtain ⟨z, e, -⟩ := C94_accuracy hq (by linarith) h1
  refine ⟨z, e, ?_⟩
  rw [moroInvCdf_double hq (by linarith) h1, if_pos h0] at e
  rw [moroInvCdf_double (binary64_compl hq h0 h1).1 (by linarith) (by linarith), if_neg (by linarith)]
  split at e <;> rename_i hb
  · rw [if_pos hb]
    rw [Res.ok.injEq] at e
    have : moroCentral (.num ((1 - q : ℝ) : EReal) - lit (1 / 2) : Dbl .binary64) = - - moroCentral (.num ((1 - q : ℝ) : EReal) - lit (1 / 2)) := by
      cases moroCentral (.num ((1 - q : ℝ) : EReal) - lit (1 / 2) : Dbl .binary64) <;> simp
    rw [this, e, EReal.coe_neg]; rfl
  · rw [if_neg hb]
    rw [Res.ok.injEq] at e
    rw [e, EReal.coe_neg]; rfl

/-- A quotient of doubles strictly between nought and one. -/
theorem quotient_double {u : ℝ} (h0 : 2 ^ (-900 : ℤ) ≤ u) (h1 : u ≤ 1 - 2 ^ (-53 : ℤ)) :
    ∃ x : ℝ, Rounding.binary64.rnd u = (x : EReal) ∧ Rounding.binary64.rnd x = (x : EReal) ∧ 0 < x ∧ x < 1 ∧ |x - u| ≤ 1 / 10000000000 := by
  have hu : 0 < u := lt_of_lt_of_le (by positivity) h0
  have hu1 : u ≤ 1 := h1.trans (by norm_num)
  obtain ⟨x, ex, bx⟩ := binary64_close (x := u) (by rw [abs_of_pos hu]; exact hu1.trans (by norm_num))
  rw [abs_of_pos hu] at bx
  have n0 : (2 : ℝ) ^ (-1075 : ℤ) ≤ 1 / 4 * 2 ^ (-900 : ℤ) := by
    rw [show (2 : ℝ) ^ (-1075 : ℤ) = 2 ^ (-175 : ℤ) * 2 ^ (-900 : ℤ) by rw [← zpow_add₀ (by norm_num)]; norm_num]
    gcongr
    norm_num
  have n1 : (2 : ℝ) ^ (-1075 : ℤ) < 2 ^ (-53 : ℤ) * 2 ^ (-53 : ℤ) := by
    rw [← zpow_add₀ (by norm_num)]
    exact zpow_lt_zpow_right₀ (by norm_num) (by norm_num)
  have n2 : (2 : ℝ) ^ (-53 : ℤ) ≤ 1 / 40000000000 := by norm_num
  have n3 : (0 : ℝ) < 2 ^ (-53 : ℤ) := by positivity
  have n4 : (0 : ℝ) < 2 ^ (-900 : ℤ) := by positivity
  have n5 : (2 : ℝ) ^ (-1075 : ℤ) ≤ 1 / 40000000000 := n1.le.trans (by norm_num)
  obtain ⟨b1, b2⟩ := abs_le.mp bx
  refine ⟨x, ex, binary64_idem h0 hu1 ex, ?_, ?_, bx.trans ?_⟩
  · generalize (2 : ℝ) ^ (-53 : ℤ) = e at *
    generalize (2 : ℝ) ^ (-1075 : ℤ) = t at *
    generalize (2 : ℝ) ^ (-900 : ℤ) = w at *
    nlinarith
  · generalize (2 : ℝ) ^ (-53 : ℤ) = e at *
    generalize (2 : ℝ) ^ (-1075 : ℤ) = t at *
    nlinarith
  · generalize (2 : ℝ) ^ (-53 : ℤ) = e at *
    generalize (2 : ℝ) ^ (-1075 : ℤ) = t at *
    nlinarith

/-- **C94.** The quasi random generators in double precision: the coordinate `p` at the scale `c` gives a normal number whose
distribution function is `p / c` up to seven ten-billionths, provided the quotient is not so close to one that it is rounded to one. -/
theorem C94_draw {Q : Type} (q : Quasi.Sequence Q (Dbl .binary64)) {c p : ℝ} (hs : q.scale = .num c) (h0 : 2 ^ (-900 : ℤ) ≤ p / c) (h1 : p / c ≤ 1 - 2 ^ (-53 : ℤ))
    (s : Quasi.State Q (Dbl .binary64)) (hd : s.step < s.dim) (hi : s.step < INT_MAX) (hp : s.point[s.step]? = some (.num p)) :
    ∃ z : ℝ, Quasi.draw q .stdNormal s = (.ok (.num z), { s with step := s.step + 1 }) ∧ |cdf (gaussianReal 0 1) z - p / c| ≤ 7 / 10000000000 := by
  have hc : c ≠ 0 := by
    rintro rfl
    rw [div_zero] at h0
    exact absurd h0 (not_le.mpr (by positivity))
  obtain ⟨x, ex, hx, hx0, hx1, bx⟩ := quotient_double h0 h1
  obtain ⟨z, e, b⟩ := C94_accuracy hx hx0 hx1
  refine ⟨z, ?_, ?_⟩
  · have e1 : (.num p / q.scale : Dbl .binary64) = .num x := by
      rw [hs, Dbl.div_coe _ hc, ex]
    have e2 : Quasi.refill q s = (.ok (), s) := by rw [Quasi.refill, if_neg (by omega)]
    have e3 : Quasi.emit q .stdNormal s = (.ok (.num z), { s with step := s.step + 1 }) := by
      have : vget s.point s.step = .ok (.num p) := by rw [vget, hp]
      rw [Quasi.emit, this]
      simp only [if_pos hi, Dist.invCdf, e1, e]
    change Eff.bind (Quasi.refill q) (fun _ => Quasi.emit q .stdNormal) s = _
    rw [Eff.bind, e2]
    exact e3
  · have := abs_sub_le (cdf (gaussianReal 0 1) z) x (p / c)
    linarith

theorem lit_natCast {n : ℕ} (hn : n ≤ 2 ^ 53) : (lit (n : ℚ) : Dbl .binary64) = .num ((n : ℝ) : EReal) := by
  rw [Dbl.lit_def]
  rw [Rat.cast_natCast, show Rounding.binary64.rnd (n : ℝ) = ((n : ℝ) : EReal) from Binary64.rnd_natCast hn]

/-- The fractions `k / M` strictly between nought and one. -/
theorem fraction_range {M k : ℕ} (hM : M ≤ 2 ^ 53) (hk0 : 0 < k) (hkM : k < M) : (2 : ℝ) ^ (-900 : ℤ) ≤ (k : ℝ) / M ∧ (k : ℝ) / M ≤ 1 - 2 ^ (-53 : ℤ) := by
  have hM0 : (0 : ℝ) < M := by exact_mod_cast hk0.trans hkM
  have hk0' : (1 : ℝ) ≤ k := by exact_mod_cast hk0
  have hkM' : (k : ℝ) + 1 ≤ M := by exact_mod_cast hkM
  have hM' : (M : ℝ) ≤ 2 ^ 53 := by exact_mod_cast hM
  constructor
  · refine (zpow_le_zpow_right₀ (by norm_num) (by norm_num : (-900 : ℤ) ≤ -53)).trans ?_
    rw [zpow_neg, le_div_iff₀ hM0, inv_mul_le_iff₀ (by positivity)]
    refine hM'.trans ?_
    norm_num
    linarith
  · rw [div_le_iff₀ hM0, zpow_neg]
    have : ((2 : ℝ) ^ (53 : ℤ))⁻¹ * M ≤ 1 := by
      rw [inv_mul_le_iff₀ (by positivity)]; exact hM'.trans (by norm_num)
    linarith

/-- **C94.** A generator with 64-bit coordinates, such as Boost's `sobol`, whose largest value is `2⁶⁴ - 1`: neither coordinates nor
scale are exact as doubles. -/
theorem C94_sobol {Q : Type} (q : Quasi.Sequence Q (Dbl .binary64)) (hs : q.scale = lit ((2 ^ 64 - 1 : ℕ) : ℚ)) {k : ℕ} (hk0 : 0 < k) (hk1 : k ≤ 2 ^ 64 - 2 ^ 14)
    (s : Quasi.State Q (Dbl .binary64)) (hd : s.step < s.dim) (hi : s.step < INT_MAX) (hp : s.point[s.step]? = some (lit (k : ℚ))) :
    ∃ z : ℝ, Quasi.draw q .stdNormal s = (.ok (.num z), { s with step := s.step + 1 }) ∧ |cdf (gaussianReal 0 1) z - k / 2 ^ 64| ≤ 8 / 10000000000 := by
  have k0 : (1 : ℝ) ≤ k := by exact_mod_cast hk0
  have k1 : (k : ℝ) ≤ 2 ^ 64 - 2 ^ 14 := by
    have : (k : ℝ) ≤ ((2 ^ 64 - 2 ^ 14 : ℕ) : ℝ) := by exact_mod_cast hk1
    exact this.trans (by norm_num)
  obtain ⟨p, ep, bp⟩ := binary64_close (x := (k : ℝ)) (by rw [abs_of_nonneg (by linarith)]; exact k1.trans (by norm_num))
  obtain ⟨c, ec, bc⟩ := binary64_close (x := ((2 ^ 64 - 1 : ℕ) : ℝ)) (by rw [abs_of_nonneg (by positivity)]; norm_num)
  have bp' : |p - k| ≤ 2 ^ (-52 : ℤ) * k := by
    rw [abs_of_nonneg (a := (k : ℝ)) (by linarith)] at bp
    refine bp.trans ?_
    have n : (2 : ℝ) ^ (-1075 : ℤ) ≤ 2 ^ (-53 : ℤ) := zpow_le_zpow_right₀ (by norm_num) (by norm_num)
    have n' : (2 : ℝ) ^ (-52 : ℤ) = 2 * 2 ^ (-53 : ℤ) := by norm_num
    have n3 : (0 : ℝ) < 2 ^ (-53 : ℤ) := by positivity
    rw [n']
    generalize (2 : ℝ) ^ (-53 : ℤ) = e at *
    generalize (2 : ℝ) ^ (-1075 : ℤ) = t at *
    nlinarith
  have bc' : |c - 2 ^ 64| ≤ 2 ^ 12 := by
    have n : (2 : ℝ) ^ (-1075 : ℤ) ≤ 1 := zpow_le_one_of_nonpos₀ (by norm_num) (by norm_num)
    have e1 : |((2 ^ 64 - 1 : ℕ) : ℝ)| = 2 ^ 64 - 1 := by rw [abs_of_nonneg (by positivity)]; norm_num
    rw [e1] at bc
    have e2 : ((2 ^ 64 - 1 : ℕ) : ℝ) = 2 ^ 64 - 1 := by norm_num
    rw [e2] at bc
    obtain ⟨c1, c2⟩ := abs_le.mp bc
    have n2 : (2 : ℝ) ^ (-53 : ℤ) * (2 ^ 64 - 1) ≤ 2 ^ 11 := by norm_num
    rw [abs_le]
    generalize (2 : ℝ) ^ (-53 : ℤ) * (2 ^ 64 - 1) = e at *
    constructor <;> linarith
  obtain ⟨p1, p2⟩ := abs_le.mp bp'
  obtain ⟨c1, c2⟩ := abs_le.mp bc'
  have n52 : (2 : ℝ) ^ (-52 : ℤ) * (2 ^ 64 - 2 ^ 14) ≤ 2 ^ 12 := by norm_num
  have hpk : (2 : ℝ) ^ (-52 : ℤ) * k ≤ 2 ^ 12 := (mul_le_mul_of_nonneg_left k1 (by positivity)).trans n52
  have hc0 : 0 < c := by linarith only [c1]
  have hp0 : 1 / 2 ≤ p := by
    have : (2 : ℝ) ^ (-52 : ℤ) * k ≤ 1 / 2 * k := by gcongr; norm_num
    generalize (2 : ℝ) ^ (-52 : ℤ) * k = e at *
    linarith
  have hu0 : (2 : ℝ) ^ (-900 : ℤ) ≤ p / c := by
    rw [le_div_iff₀ hc0]
    calc (2 : ℝ) ^ (-900 : ℤ) * c ≤ 2 ^ (-66 : ℤ) * 2 ^ 65 := mul_le_mul (zpow_le_zpow_right₀ (by norm_num) (by norm_num)) (by linarith) hc0.le (by positivity)
      _ ≤ p := by refine le_trans ?_ hp0; norm_num
  have hu1 : p / c ≤ 1 - 2 ^ (-53 : ℤ) := by
    rw [div_le_iff₀ hc0, sub_mul]
    have : (2 : ℝ) ^ (-53 : ℤ) * c ≤ 2 ^ (-53 : ℤ) * (2 ^ 64 + 2 ^ 12) := by gcongr; linarith
    have n53 : (2 : ℝ) ^ (-53 : ℤ) * (2 ^ 64 + 2 ^ 12) ≤ 2 ^ 11 + 1 := by norm_num
    linarith
  obtain ⟨z, e, b⟩ := C94_draw q (c := c) (p := p) (by rw [hs, Dbl.lit_def, Rat.cast_natCast, ec]) hu0 hu1 s hd hi (by rw [hp, Dbl.lit_def, Rat.cast_natCast, ep])
  refine ⟨z, e, ?_⟩
  have d : |p / c - k / 2 ^ 64| ≤ 1 / 10000000000 := by
    have : p / c - k / 2 ^ 64 = (2 ^ 64 * (p - k) - k * (c - 2 ^ 64)) / (c * 2 ^ 64) := by
      field_simp
      ring
    rw [this, abs_div, abs_of_pos (show 0 < c * 2 ^ 64 by positivity), div_le_iff₀ (by positivity)]
    have t1 : |2 ^ 64 * (p - k) - k * (c - 2 ^ 64)| ≤ 2 ^ 64 * 2 ^ 12 + 2 ^ 64 * 2 ^ 12 := by
      refine (abs_sub _ _).trans (add_le_add ?_ ?_)
      · rw [abs_mul, abs_of_pos (by positivity : (0 : ℝ) < 2 ^ 64)]
        exact mul_le_mul_of_nonneg_left (bp'.trans hpk) (by positivity)
      · rw [abs_mul, abs_of_nonneg (by linarith : (0 : ℝ) ≤ k)]
        exact mul_le_mul (by linarith) bc' (abs_nonneg _) (by positivity)
    have t2 : (2 : ℝ) ^ 63 * 2 ^ 64 ≤ c * 2 ^ 64 := by gcongr; linarith only [c1]
    have : (2 : ℝ) ^ 64 * 2 ^ 12 + 2 ^ 64 * 2 ^ 12 ≤ 1 / 10000000000 * (2 ^ 63 * 2 ^ 64) := by norm_num
    exact t1.trans (this.trans (mul_le_mul_of_nonneg_left t2 (by norm_num)))
  have := abs_sub_le (cdf (gaussianReal 0 1) z) (p / c) (k / 2 ^ 64)
  linarith

/-- **C94.** The normal numbers obtained from the coordinates `1, …, M - 1` have the normal law, up to seven ten-billionths and one
point: the share of those that are at most `x` differs by no more than that from the normal distribution function, whatever `x`. -/
theorem C94_law {M : ℕ} (hM0 : 0 < M) (hM : M ≤ 2 ^ 53) : ∃ Z : ℕ → ℝ, (∀ k, 0 < k → k < M → moroInvCdf (lit (k : ℚ) / lit (M : ℚ) : Dbl .binary64) = .ok (.num (Z k))) ∧
    ∀ x, |(((Finset.Ioo 0 M).filter fun k => Z k ≤ x).card : ℝ) / M - cdf (gaussianReal 0 1) x| ≤ 7 / 10000000000 + 1 / M := by
  have key : ∀ k, ∃ z : ℝ, 0 < k → k < M → moroInvCdf (lit (k : ℚ) / lit (M : ℚ) : Dbl .binary64) = .ok (.num z) ∧ |Phi z - k / M| ≤ 7 / 10000000000 := by
    intro k
    by_cases h : 0 < k ∧ k < M
    · let q : Quasi.Sequence Unit (Dbl .binary64) := ⟨fun _ _ => .ok (), fun s => (.ok [], s), lit (M : ℚ)⟩
      obtain ⟨z, e, b⟩ := C94_draw q (lit_natCast hM) (fraction_range hM h.1 h.2).1 (fraction_range hM h.1 h.2).2 ⟨1, 0, 0, [lit (k : ℚ)], ()⟩ (by norm_num)
        (by norm_num [INT_MAX]) (by rw [← lit_natCast (h.2.le.trans hM)]; rfl)
      refine ⟨z, fun _ _ => ⟨?_, b⟩⟩
      exact congrArg Prod.fst e
    · exact ⟨0, fun a b => absurd ⟨a, b⟩ h⟩
  choose Z hZ using key
  refine ⟨Z, fun k a b => (hZ k a b).1, fun x => ?_⟩
  change |_ - Phi x| ≤ _
  have hM' : (0 : ℝ) < M := by exact_mod_cast hM0
  set ε : ℝ := 7 / 10000000000 with hε
  set S := (Finset.Ioo 0 M).filter fun k => Z k ≤ x with hS
  have hε0 : 0 ≤ ε := by rw [hε]; norm_num
  have hP0 := Phi_nonneg x
  have hP1 : Phi x ≤ 1 := cdf_le_one _ x
  have up : (S.card : ℝ) ≤ M * (Phi x + ε) := by
    have : S ⊆ Finset.Ioc 0 ⌊M * (Phi x + ε)⌋₊ := by
      intro k hk
      rw [hS, Finset.mem_filter, Finset.mem_Ioo] at hk
      obtain ⟨⟨a, b⟩, c⟩ := hk
      have d := (abs_le.mp (hZ k a b).2).1
      have e := Phi_mono c
      rw [Finset.mem_Ioc]
      refine ⟨a, Nat.le_floor ?_⟩
      have : (k : ℝ) / M ≤ Phi x + ε := by linarith
      rw [div_le_iff₀ hM'] at this
      linarith
    have c := Finset.card_le_card this
    rw [Nat.card_Ioc, Nat.sub_zero] at c
    calc (S.card : ℝ) ≤ (⌊M * (Phi x + ε)⌋₊ : ℝ) := by exact_mod_cast c
      _ ≤ _ := Nat.floor_le (by positivity)
  have lo : M * (Phi x - ε) - 1 ≤ (S.card : ℝ) := by
    rcases le_or_gt (M * (Phi x - ε)) 0 with h | h
    · have : (0 : ℝ) ≤ S.card := Nat.cast_nonneg _
      linarith
    have : Finset.Ioo 0 ⌈M * (Phi x - ε)⌉₊ ⊆ S := by
      intro k hk
      rw [Finset.mem_Ioo] at hk
      have hk2 : (k : ℝ) < M * (Phi x - ε) := Nat.lt_ceil.mp hk.2
      have hkM : k < M := by
        have : (k : ℝ) < M := hk2.trans_le (by
          have : M * (Phi x - ε) ≤ M * 1 := mul_le_mul_of_nonneg_left (by linarith) hM'.le
          linarith)
        exact_mod_cast this
      have d := (abs_le.mp (hZ k hk.1 hkM).2).2
      have e : (k : ℝ) / M < Phi x - ε := by
        rw [div_lt_iff₀ hM']; linarith
      rw [hS, Finset.mem_filter, Finset.mem_Ioo]
      refine ⟨⟨hk.1, hkM⟩, ?_⟩
      by_contra hc
      have := Phi_mono (not_le.mp hc).le
      linarith
    have c := Finset.card_le_card this
    rw [Nat.card_Ioo] at c
    have c' : (⌈M * (Phi x - ε)⌉₊ : ℝ) ≤ S.card + 1 := by exact_mod_cast (by omega : ⌈M * (Phi x - ε)⌉₊ ≤ S.card + 1)
    linarith [Nat.le_ceil (M * (Phi x - ε))]
  rw [abs_le]
  have e1 : (S.card : ℝ) / M ≤ Phi x + ε := by rw [div_le_iff₀ hM']; linarith
  have e2 : Phi x - ε - 1 / M ≤ (S.card : ℝ) / M := by
    rw [le_div_iff₀ hM', sub_mul, one_div, inv_mul_cancel₀ hM'.ne']; linarith
  have : (0 : ℝ) < 1 / M := by positivity
  constructor <;> linarith

/-- Three quarters and one quarter. -/
example : ∃ z : ℝ, moroInvCdf (.num ((3 / 4 : ℝ) : EReal) : Dbl .binary64) = .ok (.num z) ∧ moroInvCdf (.num ((1 - 3 / 4 : ℝ) : EReal) : Dbl .binary64) = .ok (.num ((-z : ℝ) : EReal)) := by
  refine C94_symmetry ?_ (by norm_num) (by norm_num)
  have := binary64_scaled (n := 3) (by norm_num) (e := -2) (by norm_num) (by norm_num)
  norm_num at this ⊢
  exact this

example : ∃ z : ℝ, moroInvCdf (.num ((1 * 2 ^ (-40 : ℤ) : ℝ) : EReal) : Dbl .binary64) = .ok (.num z) ∧ |cdf (gaussianReal 0 1) z - 1 * 2 ^ (-40 : ℤ)| ≤ 6 / 10000000000 := by
  refine C94_accuracy ?_ (by norm_num) (by norm_num)
  have := binary64_scaled (n := 1) (by norm_num) (e := -40) (by norm_num) (by norm_num)
  rwa [Nat.cast_one] at this

example : ∃ z : ℝ, moroInvCdf (.num ((1 * 2 ^ (-40 : ℤ) : ℝ) : EReal) : Dbl .binary64) = .ok (.num z) ∧ |z| ≤ 10 := by
  obtain ⟨z, h1, -, h2⟩ := C94_size (q := 1 * 2 ^ (-40 : ℤ)) (by
    have := binary64_scaled (n := 1) (by norm_num) (e := -40) (by norm_num) (by norm_num)
    rwa [Nat.cast_one] at this) (by norm_num) (by norm_num)
  exact ⟨z, h1, h2 (by norm_num)⟩

/-- A generator with coordinates in the unit interval, such as Boost's `faure`. -/
example : ∃ z : ℝ, Quasi.draw (⟨fun _ _ => .ok (), fun s => (.ok [], s), .num (1 : ℝ)⟩ : Quasi.Sequence Unit (Dbl .binary64)) .stdNormal
      ⟨2, 0, 1, [.num (1 / 3 : ℝ), .num (2 / 3 : ℝ)], ()⟩ = (.ok (.num z), ⟨2, 0, 2, [.num (1 / 3 : ℝ), .num (2 / 3 : ℝ)], ()⟩) ∧
    |cdf (gaussianReal 0 1) z - 2 / 3 / 1| ≤ 7 / 10000000000 :=
  C94_draw _ rfl (by norm_num) (by norm_num) _ (by norm_num) (by norm_num [INT_MAX]) rfl

/-- The middle of the range of a generator with 64 bits. -/
example : ∃ z : ℝ, Quasi.draw (⟨fun _ _ => .ok (), fun s => (.ok [], s), lit ((2 ^ 64 - 1 : ℕ) : ℚ)⟩ : Quasi.Sequence Unit (Dbl .binary64)) .stdNormal
      ⟨1, 0, 0, [lit ((2 ^ 63 : ℕ) : ℚ)], ()⟩ = (.ok (.num z), ⟨1, 0, 1, [lit ((2 ^ 63 : ℕ) : ℚ)], ()⟩) ∧
    |cdf (gaussianReal 0 1) z - (2 ^ 63 : ℕ) / 2 ^ 64| ≤ 8 / 10000000000 :=
  C94_sobol _ rfl (by norm_num) (by norm_num) _ (by norm_num) (by norm_num [INT_MAX]) rfl

/-- The scale of a generator with 32 bits. -/
example : ∃ Z : ℕ → ℝ, (∀ k : ℕ, 0 < k → k < 2 ^ 32 - 1 → moroInvCdf (lit (k : ℚ) / lit ((2 ^ 32 - 1 : ℕ) : ℚ) : Dbl .binary64) = .ok (.num (Z k))) ∧
    ∀ x, |(((Finset.Ioo 0 (2 ^ 32 - 1)).filter fun k => Z k ≤ x).card : ℝ) / (2 ^ 32 - 1 : ℕ) - cdf (gaussianReal 0 1) x| ≤ 7 / 10000000000 + 1 / (2 ^ 32 - 1 : ℕ) :=
  C94_law (M := 2 ^ 32 - 1) (by norm_num) (by norm_num)

end Verif
