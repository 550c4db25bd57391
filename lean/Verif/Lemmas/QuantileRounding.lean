import Verif.Props.QuantileAccuracy
import Verif.Lemmas.DoubleOps
import Verif.Lemmas.Theta

/-!
# Rounding errors of the two branches of `inv_cdf`
-/

set_option exponentiation.threshold 3000

namespace Verif
open Spec ProbabilityTheory PolyCheck

/-! ## Relative errors -/

namespace Nr
variable {d k C : ℕ} {m x : ℝ} {y : Dbl .binary64}

/-- The absolute error caused by underflow is one rounding of a number that is not small. -/
theorem reset (h : Nr d k x y x) (hd : d ≤ 14) (hx : 2 ^ (-60 : ℤ) ≤ x) : Nr 0 (k + 1) x y x := by
  obtain ⟨a, z, e, b⟩ := h
  refine ⟨a, z, e, b.trans ?_⟩
  have t : (2 : ℝ) ^ (-1075 + 65 * d : ℤ) ≤ 2 ^ (-53 : ℤ) * 2 ^ (-60 : ℤ) := (tiny_le hd).trans (by norm_num)
  have t' : (2 : ℝ) ^ (-53 : ℤ) * 2 ^ (-60 : ℤ) ≤ 2 ^ (-53 : ℤ) * x := by gcongr
  have q : (1 : ℝ) ≤ (1 + 2 ^ (-53 : ℤ)) ^ k := one_le_pow₀ (by linarith [u_nonneg])
  have hx0 : 0 < x := lt_of_lt_of_le (by positivity) hx
  have t'' : (2 : ℝ) ^ (-53 : ℤ) * x * 1 ≤ 2 ^ (-53 : ℤ) * x * (1 + 2 ^ (-53 : ℤ)) ^ k := by gcongr
  have p : (0 : ℝ) < 2 ^ (-1075 + 65 * (0 : ℕ) : ℤ) := by positivity
  rw [pow_succ]
  linarith

/-- An error that is small against the sizes of the terms is a relative error, if the terms do not cancel each other. -/
theorem relative (h : Nr d k m y x) (hd : d ≤ 14) (hk : k ≤ 2 ^ 40) (hx : 2 ^ (-60 : ℤ) ≤ x) (hm : m ≤ C * x) : Nr 0 (2 * C * k + 1) x y x := by
  obtain ⟨z, e, b⟩ := h.error hd hk
  have hx0 : 0 < x := lt_of_lt_of_le (by positivity) hx
  refine ⟨(abs_of_pos hx0).le, z, e, b.trans ?_⟩
  have t : (2 : ℝ) ^ (-165 : ℤ) ≤ 2 ^ (-53 : ℤ) * 2 ^ (-60 : ℤ) := by norm_num
  have t' : (2 : ℝ) ^ (-53 : ℤ) * 2 ^ (-60 : ℤ) ≤ 2 ^ (-53 : ℤ) * x := by gcongr
  have p : (0 : ℝ) < 2 ^ (-1075 + 65 * (0 : ℕ) : ℤ) := by positivity
  have bern := one_add_mul_le_pow (a := (2 : ℝ) ^ (-53 : ℤ)) (by linarith [u_nonneg]) (2 * C * k + 1)
  have h1 : 2 * (k : ℝ) * 2 ^ (-53 : ℤ) * m ≤ 2 * (k : ℝ) * 2 ^ (-53 : ℤ) * (C * x) := by gcongr
  have h2 : (((2 * C * k + 1 : ℕ) : ℝ) * 2 ^ (-53 : ℤ)) * x ≤ ((1 + 2 ^ (-53 : ℤ)) ^ (2 * C * k + 1) - 1) * x :=
    mul_le_mul_of_nonneg_right (by linarith) hx0.le
  push_cast at h2
  linarith

theorem literal (q : ℚ) (h : |(q : ℝ)| ≤ 2 ^ (200 : ℤ)) : Nr 0 1 |(q : ℝ)| (lit q) (q : ℝ) := by
  rw [Dbl.lit_def]
  exact rnd h

/-- A real number close to the intended one. -/
theorem of_close {z : ℝ} (h : |z - x| ≤ k * 2 ^ (-53 : ℤ) * |x|) : Nr 0 k |x| (.num z) x := by
  refine ⟨le_rfl, z, rfl, h.trans ?_⟩
  have p : (0 : ℝ) < 2 ^ (-1075 + 65 * (0 : ℕ) : ℤ) := by positivity
  have bern := one_add_mul_le_pow (a := (2 : ℝ) ^ (-53 : ℤ)) (by linarith [u_nonneg]) k
  have h2 : ((k : ℝ) * 2 ^ (-53 : ℤ)) * |x| ≤ ((1 + 2 ^ (-53 : ℤ)) ^ k - 1) * |x| := mul_le_mul_of_nonneg_right (by linarith) (abs_nonneg x)
  linarith

/-- One step of a Horner scheme with positive numbers. -/
theorem horner {kr : ℕ} {r c B : ℝ} {yr yc : Dbl .binary64} (hr : Nr 0 kr r yr r) (h : Nr 0 k x y x) (hc : Nr 0 1 c yc c) (h0 : 0 < r) (hr7 : r ≤ 7)
    (hx : 0 < x) (hB : x ≤ B) (hB' : B ≤ 2 ^ 60) (hcl : 2 ^ (-60 : ℤ) ≤ c) (hc1 : c ≤ 1) (hk : k ≤ 2 ^ 30) (hkr : kr ≤ 2 ^ 30) :
    Nr 0 (kr + k + 3) (c + r * x) (yc + yr * y) (c + r * x) ∧ 0 < c + r * x ∧ c + r * x ≤ 1 + 7 * B := by
  have h1 := hr.mul h (by norm_num) (hkr.trans (by norm_num)) (hk.trans (by norm_num)) (hr7.trans (by norm_num)) (hB.trans hB')
  have hc0 : 0 < c := lt_of_lt_of_le (by positivity) hcl
  have b : r * x ≤ 7 * B := mul_le_mul hr7 hB hx.le (by norm_num)
  have hp : 0 < r * x := mul_pos h0 hx
  have h2 := (hc.weaken (d' := 1) (k' := kr + k + 1) (by norm_num) (by omega)).add h1 (by norm_num) (by omega) (hc1.trans (by norm_num))
    (b.trans (by linarith [hB', (by norm_num : (7 : ℝ) * 2 ^ 60 ≤ 2 ^ 100)]))
  exact ⟨h2.reset (by norm_num) (by linarith), by linarith, by linarith⟩

end Nr

/-! ## The tail -/

theorem tail_near {kr : ℕ} {r : ℝ} {y : Dbl .binary64} (hr : Nr 0 kr r y r) (h0 : 9 / 10 ≤ r) (h1 : r ≤ 7) (hk : kr ≤ 2 ^ 20) :
    Nr 0 (8 * (kr + 3) + 1) (moroTailPoly r) (moroTailPoly y) (moroTailPoly r) := by
  have L : ∀ q : ℚ, 0 < q → q ≤ 1 → Nr 0 1 ((lit q : ℝ)) (lit q : Dbl .binary64) (lit q : ℝ) := by
    intro q h0 h1
    have h0' : (0 : ℝ) < q := by exact_mod_cast h0
    have h1' : (q : ℝ) ≤ 1 := by exact_mod_cast h1
    have := Nr.literal q (by rw [abs_of_pos h0']; exact h1'.trans (by norm_num))
    rwa [abs_of_pos h0'] at this
  have p : 0 < r := by linarith
  have s8 := L (3960315187 / 10000000000000000) (by norm_num) (by norm_num)
  have s7 := hr.horner s8 (L (2888167364 / 10000000000000000) (by norm_num) (by norm_num)) p h1 (B := 1) (by simp) (by norm_num) (by norm_num) (by norm_num) (by norm_num) (by omega) (by omega)
  have s6 := hr.horner s7.1 (L (321767881768 / 10000000000000000) (by norm_num) (by norm_num)) p h1 s7.2.1 s7.2.2 (by norm_num) (by norm_num) (by norm_num) (by omega) (by omega)
  have s5 := hr.horner s6.1 (L (3951896511919 / 10000000000000000) (by norm_num) (by norm_num)) p h1 s6.2.1 s6.2.2 (by norm_num) (by norm_num) (by norm_num) (by omega) (by omega)
  have s4 := hr.horner s5.1 (L (38405729373609 / 10000000000000000) (by norm_num) (by norm_num)) p h1 s5.2.1 s5.2.2 (by norm_num) (by norm_num) (by norm_num) (by omega) (by omega)
  have s3 := hr.horner s4.1 (L (276438810333863 / 10000000000000000) (by norm_num) (by norm_num)) p h1 s4.2.1 s4.2.2 (by norm_num) (by norm_num) (by norm_num) (by omega) (by omega)
  have s2 := hr.horner s3.1 (L (1607979714918209 / 10000000000000000) (by norm_num) (by norm_num)) p h1 s3.2.1 s3.2.2 (by norm_num) (by norm_num) (by norm_num) (by omega) (by omega)
  have s1 := hr.horner s2.1 (L (9761690190917186 / 10000000000000000) (by norm_num) (by norm_num)) p h1 s2.2.1 s2.2.2 (by norm_num) (by norm_num) (by norm_num) (by omega) (by omega)
  have s0 := hr.horner s1.1 (L (3374754822726147 / 10000000000000000) (by norm_num) (by norm_num)) p h1 s1.2.1 s1.2.2 (by norm_num) (by norm_num) (by norm_num) (by omega) (by omega)
  exact s0.1.weaken le_rfl (by omega)

theorem tail_size {r : ℝ} (h0 : 0 ≤ r) (h1 : r ≤ 7) : 0 ≤ moroTailPoly r ∧ moroTailPoly r ≤ 50 := by
  rw [Tail.tail_eq]
  have a := PolyCheck.ev_mono Tail.C Tail.chk_C h0 h1
  have b : ev Tail.C (7 : ℝ) = ((evQ Tail.C 7 : ℚ) : ℝ) := by simpa using ev_rat Tail.C 7
  have c : evQ Tail.C 7 ≤ 50 := by decide +kernel
  have d : ((evQ Tail.C 7 : ℚ) : ℝ) ≤ 50 := by exact_mod_cast c
  exact ⟨a.1, a.2.trans (b.le.trans d)⟩

theorem tail_size' {r : ℝ} (h0 : 0 ≤ r) (h1 : r ≤ 382 / 100) : moroTailPoly r ≤ 99 / 10 := by
  rw [Tail.tail_eq]
  have a := PolyCheck.ev_mono Tail.C Tail.chk_C h0 h1
  have b : ev Tail.C (382 / 100 : ℝ) = ((evQ Tail.C (382 / 100) : ℚ) : ℝ) := by simpa using ev_rat Tail.C (382 / 100)
  have c : evQ Tail.C (382 / 100) ≤ 99 / 10 := by decide +kernel
  have d : ((evQ Tail.C (382 / 100) : ℚ) : ℝ) ≤ ((99 / 10 : ℚ) : ℝ) := by exact_mod_cast c
  exact a.2.trans (b.le.trans (d.trans (by norm_num)))

/-! ## The central part -/

theorem central_near {x : ℝ} {y : Dbl .binary64} (hx : Nr 0 4 |x| y x) (h : |x| ≤ 42 / 100) :
    ∃ z : ℝ, moroCentral y = .num z ∧ |z - moroCentral x| ≤ 1 / 10000000000 := by
  have L : ∀ q : ℚ, |q| ≤ 100 → Nr 0 1 |(lit q : ℝ)| (lit q : Dbl .binary64) (lit q : ℝ) := by
    intro q h1
    have h1' : |(q : ℝ)| ≤ 100 := by exact_mod_cast h1
    exact Nr.literal q (h1'.trans (by norm_num))
  have hx' := hx.mono h
  have r0 := hx'.mul hx' (by norm_num) (by norm_num) (by norm_num) (by norm_num) (by norm_num)
  norm_num at r0
  have M : ∀ {q : ℚ} {B : ℝ}, |q| ≤ 100 → |(q : ℝ)| ≤ B → ∀ d k, 1 ≤ k → Nr d k B (lit q : Dbl .binary64) (lit q : ℝ) := by
    intro q B h1 h2 d k hk
    exact ((L q h1).mono (by simpa using h2)).weaken (by omega) hk
  -- the numerator
  have n1 := (M (q := -2544106049637 / 100000000000) (B := 26) (by norm_num [abs_div]) (by norm_num [abs_div]) 1 1 le_rfl).mul r0 (by norm_num) (by norm_num) (by norm_num) (by norm_num) (by norm_num)
  have n2 := n1.add (M (q := 4139119773534 / 100000000000) (B := 42) (by norm_num [abs_div]) (by norm_num [abs_div]) 2 11 (by norm_num)) (by norm_num) (by norm_num) (by norm_num) (by norm_num)
  have n3 := n2.mul (r0.weaken (d' := 3) (k' := 9) (by norm_num) (by norm_num)) (by norm_num) (by norm_num) (by norm_num) (by norm_num) (by norm_num)
  have n4 := n3.add (M (q := -1861500062529 / 100000000000) (B := 19) (by norm_num [abs_div]) (by norm_num [abs_div]) 4 22 (by norm_num)) (by norm_num) (by norm_num) (by norm_num) (by norm_num)
  have n5 := n4.mul (r0.weaken (d' := 5) (k' := 9) (by norm_num) (by norm_num)) (by norm_num) (by norm_num) (by norm_num) (by norm_num) (by norm_num)
  have n6 := n5.add (M (q := 250662823884 / 100000000000) (B := 3) (by norm_num [abs_div]) (by norm_num [abs_div]) 6 33 (by norm_num)) (by norm_num) (by norm_num) (by norm_num) (by norm_num)
  have n7 := (hx'.weaken (d' := 7) (k' := 4) (by norm_num) (by norm_num)).mul n6 (by norm_num) (by norm_num) (by norm_num) (by norm_num) (by norm_num)
  -- the denominator
  have d1 := (M (q := 313082909833 / 100000000000) (B := 4) (by norm_num [abs_div]) (by norm_num [abs_div]) 1 1 le_rfl).mul r0 (by norm_num) (by norm_num) (by norm_num) (by norm_num) (by norm_num)
  have d2 := d1.add (M (q := -2106224101826 / 100000000000) (B := 22) (by norm_num [abs_div]) (by norm_num [abs_div]) 2 11 (by norm_num)) (by norm_num) (by norm_num) (by norm_num) (by norm_num)
  have d3 := d2.mul (r0.weaken (d' := 3) (k' := 9) (by norm_num) (by norm_num)) (by norm_num) (by norm_num) (by norm_num) (by norm_num) (by norm_num)
  have d4 := d3.add (M (q := 2308336743743 / 100000000000) (B := 24) (by norm_num [abs_div]) (by norm_num [abs_div]) 4 22 (by norm_num)) (by norm_num) (by norm_num) (by norm_num) (by norm_num)
  have d5 := d4.mul (r0.weaken (d' := 5) (k' := 9) (by norm_num) (by norm_num)) (by norm_num) (by norm_num) (by norm_num) (by norm_num) (by norm_num)
  have d6 := d5.add (M (q := -847351093090 / 100000000000) (B := 9) (by norm_num [abs_div]) (by norm_num [abs_div]) 6 33 (by norm_num)) (by norm_num) (by norm_num) (by norm_num) (by norm_num)
  have d7 := d6.mul (r0.weaken (d' := 7) (k' := 9) (by norm_num) (by norm_num)) (by norm_num) (by norm_num) (by norm_num) (by norm_num) (by norm_num)
  have d8 := d7.add (M (q := 1) (B := 1) (by norm_num) (by norm_num) 8 44 (by norm_num)) (by norm_num) (by norm_num) (by norm_num) (by norm_num)
  have ht : 0 ≤ x * x ∧ x * x ≤ 1764 / 10000 := by
    have := Central.sq_mem (abs_nonneg x) h
    rwa [abs_mul_abs_self] at this
  have hD := Central.D_pos ht.1 ht.2
  have eD : ev Central.D (x * x) = (((lit (313082909833 / 100000000000) * (x * x) + lit (-2106224101826 / 100000000000)) * (x * x) +
      lit (2308336743743 / 100000000000)) * (x * x) + lit (-847351093090 / 100000000000)) * (x * x) + lit 1 := by
    simp only [Central.D, ev_cons, ev_nil, Fl.lit_real]
    push_cast
    ring
  rw [eD] at hD
  have rel := d8.relative (C := 40) (by norm_num) (by norm_num) (hD.trans' (by norm_num)) (by norm_num at hD ⊢; linarith)
  have q := n7.div rel (by norm_num) (by norm_num) (by norm_num) (by norm_num) (by norm_num) (hD.trans' (by norm_num))
  obtain ⟨z, e, b⟩ := q.error (by norm_num) (by norm_num)
  refine ⟨z, e, b.trans ?_⟩
  generalize ((lit (313082909833 / 100000000000) * (x * x) + lit (-2106224101826 / 100000000000)) * (x * x) +
      lit (2308336743743 / 100000000000)) * (x * x) + lit (-847351093090 / 100000000000) = D' at *
  have hb : ∀ m D : ℝ, 0 ≤ m → 1 / 10 ≤ D → m / D ≤ m * 10 := by
    intro m D hm hD
    rw [div_le_iff₀ (by linarith)]
    nlinarith
  refine (add_le_add (mul_le_mul_of_nonneg_left (hb _ _ (by norm_num) hD) (by positivity)) le_rfl).trans ?_
  norm_num

end Verif
