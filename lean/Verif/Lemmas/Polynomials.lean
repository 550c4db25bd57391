import Verif.Model.Regression
import Verif.Spec.RegressionSpec
import Mathlib.Algebra.Polynomial.Derivative
import Mathlib.Analysis.Calculus.Deriv.Polynomial
import Mathlib.Topology.Algebra.Polynomial
import Mathlib.MeasureTheory.Integral.IntervalIntegral.FundThmCalculus
import Mathlib.Tactic.Linarith
import Mathlib.Tactic.FieldSimp
import Mathlib.Tactic.LinearCombination

/-!
# Polynomials given by three-term recurrences
-/

namespace Verif
open Finset Polynomial

/-- `1, X, p (n+2) = (a n * X + b n) * p (n+1) - c n * p n`. -/
noncomputable def threeTerm (a b c : ℕ → ℝ) : ℕ → ℝ[X]
  | 0 => 1
  | 1 => X
  | n + 2 => (C (a n) * X + C (b n)) * threeTerm a b c (n + 1) - C (c n) * threeTerm a b c n

theorem threeTerm_coeff (a b c : ℕ → ℝ) (ha : ∀ n, a n ≠ 0) (n : ℕ) :
    (∀ m, n < m → (threeTerm a b c n).coeff m = 0) ∧ (threeTerm a b c n).coeff n ≠ 0 := by
  induction n using Nat.strong_induction_on with
  | _ n ih =>
    match n with
    | 0 => exact ⟨fun m hm => by simp [threeTerm, coeff_one, hm.ne'], by simp [threeTerm]⟩
    | 1 => exact ⟨fun m hm => by simp [threeTerm, coeff_X, hm.ne], by simp [threeTerm]⟩
    | n + 2 =>
      obtain ⟨h1, h1'⟩ := ih (n + 1) (by omega)
      obtain ⟨h0, _⟩ := ih n (by omega)
      have key : ∀ m, (threeTerm a b c (n + 2)).coeff (m + 1) =
          a n * (threeTerm a b c (n + 1)).coeff m + b n * (threeTerm a b c (n + 1)).coeff (m + 1)
            - c n * (threeTerm a b c n).coeff (m + 1) := by
        intro m
        simp only [threeTerm, coeff_sub, add_mul, coeff_add, coeff_C_mul, mul_assoc, coeff_X_mul]
      refine ⟨fun m hm => ?_, ?_⟩
      · obtain ⟨m, rfl⟩ : ∃ k, m = k + 1 := ⟨m - 1, by omega⟩
        rw [key, h1 m (by omega), h1 (m + 1) (by omega), h0 (m + 1) (by omega)]; ring
      · rw [key (n + 1), h1 (n + 2) (by omega), h0 (n + 2) (by omega)]
        simpa using ⟨ha n, h1'⟩

theorem threeTerm_degree (a b c : ℕ → ℝ) (ha : ∀ n, a n ≠ 0) (n : ℕ) :
    (threeTerm a b c n).degree = n := by
  obtain ⟨h, h'⟩ := threeTerm_coeff a b c ha n
  have hd : (threeTerm a b c n).natDegree = n :=
    le_antisymm (natDegree_le_iff_coeff_eq_zero.2 fun m hm => h m hm) (le_natDegree_of_ne_zero h')
  rw [degree_eq_natDegree (fun h0 => h' (by rw [h0]; simp)), hd]

/-- Polynomials of all degrees below `N` generate all polynomials of degree below `N`. -/
theorem exists_combination (p : ℕ → ℝ[X]) (hp : ∀ n, (p n).degree = n) (N : ℕ) (q : ℝ[X])
    (hq : q.degree < N) : ∃ d : ℕ → ℝ, q = ∑ n ∈ range N, C (d n) * p n := by
  induction N generalizing q with
  | zero =>
    refine ⟨fun _ => 0, ?_⟩
    have : q = 0 := by
      rw [← degree_eq_bot]
      exact Nat.WithBot.lt_zero_iff.1 (by simpa using hq)
    simp [this]
  | succ N ih =>
    have hlead : (p N).coeff N ≠ 0 := coeff_ne_zero_of_eq_degree (hp N)
    obtain ⟨d, hd⟩ := ih (q - C (q.coeff N / (p N).coeff N) * p N) (by
      rw [degree_lt_iff_coeff_zero]
      intro m hm
      rw [coeff_sub, coeff_C_mul]
      rcases hm.eq_or_lt with rfl | hlt
      · field_simp; ring
      · rw [coeff_eq_zero_of_degree_lt (p := q) (n := m) (lt_of_lt_of_le hq (by exact_mod_cast hlt)),
          coeff_eq_zero_of_degree_lt (p := p N) (n := m) (by rw [hp]; exact_mod_cast hlt)]
        ring)
    refine ⟨fun n => if n = N then q.coeff N / (p N).coeff N else d n, ?_⟩
    rw [sum_range_succ, sum_congr rfl (g := fun n => C (d n) * p n)
      (fun n hn => by dsimp only; rw [if_neg (mem_range.1 hn).ne]), ← hd]
    simp

/-- Conversely, combinations have degree below `N`. -/
theorem degree_combination (p : ℕ → ℝ[X]) (hp : ∀ n, (p n).degree = n) (N : ℕ) (d : ℕ → ℝ) :
    (∑ n ∈ range N, C (d n) * p n).degree < N := by
  rw [degree_lt_iff_coeff_zero]
  intro m hm
  rw [finset_sum_coeff]
  refine sum_eq_zero fun n hn => ?_
  rw [coeff_C_mul, coeff_eq_zero_of_degree_lt (by rw [hp]; exact_mod_cast (mem_range.1 hn).trans_le hm), mul_zero]

/-! ## Legendre polynomials -/

theorem C2 : (C 2 : ℝ[X]) = 2 := rfl

/-- The polynomials of Bonnet's recurrence. -/
noncomputable def bonnet : ℕ → ℝ[X] :=
  threeTerm (fun n => (2 * (n + 1) + 1) / (n + 2)) (fun _ => 0) (fun n => (n + 1) / (n + 2))

theorem bonnet_degree (n : ℕ) : (bonnet n).degree = n := by
  refine threeTerm_degree _ _ _ (fun n => ?_) n
  positivity

theorem bonnet_step (n : ℕ) :
    ((n : ℝ[X]) + 2) * bonnet (n + 2) = (2 * (n : ℝ[X]) + 3) * X * bonnet (n + 1) - ((n : ℝ[X]) + 1) * bonnet n := by
  have h : ((n : ℝ) + 2) ≠ 0 := by positivity
  have e1 : ((n : ℝ[X]) + 2) * C ((2 * ((n : ℝ) + 1) + 1) / (n + 2)) = 2 * n + 3 := by
    have : ((n : ℝ[X]) + 2) = C ((n : ℝ) + 2) := by simp [C2]
    rw [this, ← C_mul, mul_div_cancel₀ _ h]
    simp [C2]; ring
  have e2 : ((n : ℝ[X]) + 2) * C (((n : ℝ) + 1) / (n + 2)) = n + 1 := by
    have : ((n : ℝ[X]) + 2) = C ((n : ℝ) + 2) := by simp [C2]
    rw [this, ← C_mul, mul_div_cancel₀ _ h]
    simp
  have : bonnet (n + 2) = (C ((2 * ((n : ℝ) + 1) + 1) / (n + 2)) * X + C 0) * bonnet (n + 1)
      - C (((n : ℝ) + 1) / (n + 2)) * bonnet n := rfl
  rw [this, C_0, add_zero]
  linear_combination X * bonnet (n + 1) * e1 - bonnet n * e2

theorem bonnet_one (n : ℕ) : (bonnet n).eval 1 = 1 := by
  induction n using Nat.strong_induction_on with
  | _ n ih =>
    match n with
    | 0 => simp [bonnet, threeTerm]
    | 1 => simp [bonnet, threeTerm]
    | n + 2 =>
      have h := congrArg (eval 1) (bonnet_step n)
      have h2 : ((n : ℝ) + 2) ≠ 0 := by positivity
      simp only [eval_mul, eval_add, eval_sub, eval_natCast, eval_ofNat, eval_X, eval_one,
        ih (n + 1) (by omega), ih n (by omega)] at h
      exact mul_left_cancel₀ h2 (by linarith)

theorem natCast_add_ne (n k : ℕ) : ((n : ℝ[X]) + (k + 1 : ℕ)) ≠ 0 := by
  rw [← Nat.cast_add]
  exact Nat.cast_ne_zero.2 (by omega)

/-- The two derivative identities. -/
theorem bonnet_deriv (n : ℕ) :
    X * derivative (bonnet (n + 1)) - derivative (bonnet n) = ((n : ℝ[X]) + 1) * bonnet (n + 1) ∧
    derivative (bonnet (n + 1)) - X * derivative (bonnet n) = ((n : ℝ[X]) + 1) * bonnet n := by
  induction n with
  | zero => simp [bonnet, threeTerm]
  | succ n ih =>
    obtain ⟨hA, hB⟩ := ih
    have hs := bonnet_step n
    have hd := congrArg derivative hs
    simp only [derivative_mul, derivative_add, derivative_sub, derivative_natCast, derivative_ofNat,
      derivative_X, derivative_one, zero_mul, mul_zero, add_zero, zero_add, mul_one] at hd
    have hne : ((n : ℝ[X]) + 2) ≠ 0 := natCast_add_ne n 1
    have hB' : derivative (bonnet (n + 2)) - X * derivative (bonnet (n + 1)) = ((n : ℝ[X]) + 2) * bonnet (n + 1) := by
      apply mul_left_cancel₀ hne
      linear_combination hd + ((n : ℝ[X]) + 1) * hA
    refine ⟨?_, ?_⟩
    · push_cast
      linear_combination X * hB' + X * hA - hB - hs
    · push_cast
      linear_combination hB'

theorem bonnet_ode (n : ℕ) :
    derivative ((X ^ 2 - 1) * derivative (bonnet n)) = (n : ℝ[X]) * ((n : ℝ[X]) + 1) * bonnet n := by
  cases n with
  | zero => simp [bonnet, threeTerm]
  | succ n =>
    obtain ⟨hA, hB⟩ := bonnet_deriv n
    have h1 : (X ^ 2 - 1) * derivative (bonnet (n + 1)) = ((n : ℝ[X]) + 1) * (X * bonnet (n + 1) - bonnet n) := by
      linear_combination X * hA - hB
    rw [h1]
    simp only [derivative_mul, derivative_add, derivative_sub, derivative_natCast, derivative_X, derivative_one]
    push_cast
    linear_combination ((n : ℝ[X]) + 1) * hA

theorem integral_derivative (q : ℝ[X]) (a b : ℝ) :
    ∫ x in a..b, (derivative q).eval x = q.eval b - q.eval a :=
  intervalIntegral.integral_eq_sub_of_hasDerivAt (fun x _ => q.hasDerivAt x)
    ((show Continuous fun x => (derivative q).eval x by fun_prop).intervalIntegrable a b)

theorem bonnet_orthogonal (m n : ℕ) (h : m ≠ n) :
    ∫ x in (-1 : ℝ)..1, (bonnet m).eval x * (bonnet n).eval x = 0 := by
  have hW := integral_derivative ((X ^ 2 - 1) * derivative (bonnet m) * bonnet n
    - (X ^ 2 - 1) * derivative (bonnet n) * bonnet m) (-1) 1
  have e : derivative ((X ^ 2 - 1) * derivative (bonnet m) * bonnet n
      - (X ^ 2 - 1) * derivative (bonnet n) * bonnet m)
      = C ((m : ℝ) * (m + 1) - n * (n + 1)) * (bonnet m * bonnet n) := by
    have h1 := bonnet_ode m
    have h2 := bonnet_ode n
    rw [derivative_sub, derivative_mul (f := (X ^ 2 - 1) * derivative (bonnet m)),
      derivative_mul (f := (X ^ 2 - 1) * derivative (bonnet n)), h1, h2]
    simp only [C_sub, C_mul, C_add, C_1, map_natCast]
    ring
  rw [e] at hW
  simp only [eval_mul, eval_C, eval_sub, eval_pow, eval_X, eval_one, intervalIntegral.integral_const_mul] at hW
  norm_num at hW
  rcases hW with hW | hW
  · exfalso
    apply h
    have : ((m : ℝ) - n) * (m + n + 1) = 0 := by linear_combination hW
    rcases mul_eq_zero.1 this with h' | h'
    · exact_mod_cast sub_eq_zero.1 h'
    · have : (0 : ℝ) < m + n + 1 := by positivity
      linarith
  · exact hW

/-- Integrals of products with a combination. -/
theorem integral_combination (p : ℕ → ℝ[X]) (N : ℕ) (d : ℕ → ℝ) (q : ℝ[X]) :
    ∫ x in (-1 : ℝ)..1, (∑ n ∈ range N, C (d n) * p n).eval x * q.eval x =
      ∑ n ∈ range N, d n * ∫ x in (-1 : ℝ)..1, (p n).eval x * q.eval x := by
  simp only [eval_finset_sum, eval_mul, eval_C, sum_mul]
  rw [intervalIntegral.integral_finset_sum (fun n _ =>
    (show Continuous fun x => d n * (p n).eval x * q.eval x by fun_prop).intervalIntegrable _ _)]
  refine sum_congr rfl fun n _ => ?_
  simp only [mul_assoc, intervalIntegral.integral_const_mul]

theorem legendre_degree {P : ℕ → ℝ[X]} (h : Spec.IsLegendre P) (n : ℕ) : (P n).degree = n := by
  rw [degree_eq_natDegree (fun h0 => by have := h.one n; rw [h0] at this; simp at this), h.degree]

theorem legendre_norm {P : ℕ → ℝ[X]} (h : Spec.IsLegendre P) (n : ℕ) :
    0 < ∫ x in (-1 : ℝ)..1, (P n).eval x * (P n).eval x :=
  intervalIntegral.integral_pos (by norm_num)
    (show Continuous fun x => (P n).eval x * (P n).eval x by fun_prop).continuousOn
    (fun x _ => mul_self_nonneg _) ⟨1, by norm_num, by rw [h.one]; norm_num⟩

/-- There is only one sequence of Legendre polynomials. -/
theorem legendre_unique {P Q : ℕ → ℝ[X]} (hP : Spec.IsLegendre P) (hQ : Spec.IsLegendre Q) : P = Q := by
  funext n
  obtain ⟨d, hd⟩ := exists_combination Q (legendre_degree hQ) (n + 1) (P n)
    (by rw [legendre_degree hP]; exact_mod_cast Nat.lt_succ_self n)
  have hz : ∀ m < n, d m = 0 := by
    intro m hm
    obtain ⟨e, he⟩ := exists_combination P (legendre_degree hP) (m + 1) (Q m)
      (by rw [legendre_degree hQ]; exact_mod_cast Nat.lt_succ_self m)
    have h1 : ∫ x in (-1 : ℝ)..1, (P n).eval x * (Q m).eval x = 0 := by
      have := integral_combination P (m + 1) e (P n)
      rw [← he] at this
      simp only [mul_comm (eval _ (P n))]
      rw [this]
      exact sum_eq_zero fun k hk => by
        rw [hP.orthogonal k n (by have := mem_range.1 hk; omega), mul_zero]
    have h2 := integral_combination Q (n + 1) d (Q m)
    rw [← hd, h1, sum_eq_single m (fun k _ hk => by rw [hQ.orthogonal k m hk, mul_zero])
      (fun hk => absurd (mem_range.2 (by omega)) hk)] at h2
    exact (mul_eq_zero.1 h2.symm).resolve_right (legendre_norm hQ m).ne'
  rw [sum_range_succ, sum_eq_zero (fun k hk => by rw [hz k (mem_range.1 hk)]; simp), zero_add] at hd
  have h1 := congrArg (eval 1) hd
  rw [hP.one, eval_mul, eval_C, hQ.one, mul_one] at h1
  rw [hd, ← h1, C_1, one_mul]

theorem bonnet_isLegendre : Spec.IsLegendre bonnet :=
  ⟨fun n => natDegree_eq_of_degree_eq_some (bonnet_degree n), bonnet_one, bonnet_orthogonal⟩

end Verif
