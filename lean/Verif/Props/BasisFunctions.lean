import Verif.Lemmas.Polynomials
import Mathlib.Analysis.SpecialFunctions.Trigonometric.Chebyshev.Basic

/-!
# C48, C49: the basis functions
-/

set_option linter.unusedSectionVars false

namespace Verif
open Finset Polynomial

/-- The polynomial of column `n`. -/
noncomputable def BasisKind.poly : BasisKind → ℕ → ℝ[X]
  | .monomial, n => X ^ n
  | .chebyshev, n => Chebyshev.T ℝ n
  | .legendre, n => bonnet n
  | .laguerre, n => threeTerm (fun n => -1 / (n + 2)) (fun n => (2 * (n + 1) + 1) / (n + 2))
      (fun n => (n + 1) / (n + 2)) n

theorem BasisKind.poly_degree (k : BasisKind) (n : ℕ) : (k.poly n).degree = n := by
  cases k with
  | monomial => exact degree_X_pow n
  | chebyshev => rw [poly, Chebyshev.degree_T]; simp
  | legendre => exact bonnet_degree n
  | laguerre =>
    refine threeTerm_degree _ _ _ (fun n => ?_) n
    have : ((n : ℝ) + 2) ≠ 0 := by positivity
    exact div_ne_zero (by norm_num) this

theorem BasisKind.col_eq (k : BasisKind) (n : ℕ) (x : ℝ) : k.col x n = (k.poly n).eval x := by
  cases k with
  | monomial => simp [col, poly, FlPow.powi]
  | chebyshev =>
    show chebyshevCol x n = _
    induction n using Nat.strong_induction_on with
    | _ n ih =>
      match n with
      | 0 => simp [chebyshevCol, poly]
      | 1 => simp [chebyshevCol, poly]
      | n + 2 =>
        rw [chebyshevCol, ih (n + 1) (by omega), ih n (by omega)]
        simp only [poly, Nat.cast_add, Nat.cast_ofNat, Nat.cast_one, Chebyshev.T_add_two]
        simp
  | legendre =>
    show legendreCol x n = _
    induction n using Nat.strong_induction_on with
    | _ n ih =>
      match n with
      | 0 => simp [legendreCol, poly, bonnet, threeTerm]
      | 1 => simp [legendreCol, poly, bonnet, threeTerm]
      | n + 2 =>
        rw [legendreCol, ih (n + 1) (by omega), ih n (by omega)]
        simp only [poly]
        rw [show bonnet (n + 2) = (C ((2 * ((n : ℝ) + 1) + 1) / (n + 2)) * X + C 0) * bonnet (n + 1)
          - C (((n : ℝ) + 1) / (n + 2)) * bonnet n from rfl]
        have : ((n : ℝ) + 2) ≠ 0 := by positivity
        simp
        field_simp
  | laguerre =>
    show laguerreCol x n = _
    induction n using Nat.strong_induction_on with
    | _ n ih =>
      match n with
      | 0 => simp [laguerreCol, poly, threeTerm]
      | 1 => simp [laguerreCol, poly, threeTerm]
      | n + 2 =>
        rw [laguerreCol, ih (n + 1) (by omega), ih n (by omega)]
        simp only [poly]
        rw [threeTerm.eq_3]
        have : ((n : ℝ) + 2) ≠ 0 := by positivity
        simp
        field_simp
        ring

section Shape
variable {F : Type} [Fl F] [Add F] [Sub F] [Mul F] [Div F] [FlPow F]

/-- **C48, shape**, in any arithmetic: a basis object exists iff the number of basis functions is
positive; `generate(x)` returns (up to the range of `int`) one row per point and one column per basis
function, and a row depends on its point only. -/
theorem C48_shape (k : BasisKind) (N : ℕ) :
    ((k.construct N).IsOk ↔ 0 < N) ∧ (N = 0 → (k.construct N).Throws .invalidArgument) ∧
    ∃ g : F → List F, (∀ x, (g x).length = N) ∧
      ∀ xs : List F, N ≤ k.maxBasis → k.generate N xs = .ok (xs.map g) := by
  refine ⟨?_, ?_, fun x => (List.range N).map fun n => k.col x n, fun x => by simp, ?_⟩
  · unfold BasisKind.construct
    split
    · simp [Res.IsOk, invalidArg, *]
    · simp [Res.IsOk]; omega
  · rintro rfl
    simp [BasisKind.construct, Res.Throws, invalidArg]
  · intro xs hN
    simp [BasisKind.generate, Nat.not_lt.2 hN]

end Shape

/-- **C48, degrees**: there are fixed polynomials `p 0, p 1, ...` with `p n` of degree `n` such that, for
all numbers of basis functions and all points, entry `n` of the row of a point `x` is `p n (x)`. -/
theorem C48_polynomials (k : BasisKind) : ∃ p : ℕ → ℝ[X], (∀ n, (p n).degree = n) ∧
    ∀ N ≤ k.maxBasis, ∀ xs : List ℝ, k.generate N xs =
      .ok (xs.map fun x => (List.range N).map fun n => (p n).eval x) :=
  ⟨k.poly, k.poly_degree, fun N hN xs => by simp [BasisKind.generate, Nat.not_lt.2 hN, k.col_eq]⟩

/-- **C48, monomials**: column `n` is `x ^ n`. -/
theorem C48_monomial (N : ℕ) (hN : N ≤ INT_MAX) (xs : List ℝ) :
    BasisKind.generate .monomial N xs = .ok (xs.map fun x => (List.range N).map fun n => x ^ n) := by
  have : ¬ BasisKind.maxBasis .monomial < N := Nat.not_lt.2 hN
  simp [BasisKind.generate, this, BasisKind.col_eq, BasisKind.poly]

/-- **C48, Chebyshev**: column `n` is the Chebyshev polynomial of the first kind, in particular
`cos (n θ)` at `cos θ`. -/
theorem C48_chebyshev (N : ℕ) (hN : N ≤ INT_MAX) :
    (∀ xs : List ℝ, BasisKind.generate .chebyshev N xs =
      .ok (xs.map fun x => (List.range N).map fun n : ℕ => (Chebyshev.T ℝ n).eval x)) ∧
    ∀ θs : List ℝ, BasisKind.generate .chebyshev N (θs.map Real.cos) =
      .ok (θs.map fun θ => (List.range N).map fun n : ℕ => Real.cos (n * θ)) := by
  have : ¬ BasisKind.maxBasis .chebyshev < N := Nat.not_lt.2 hN
  refine ⟨fun xs => ?_, fun θs => ?_⟩
  · simp [BasisKind.generate, this, BasisKind.col_eq, BasisKind.poly]
  · simp [BasisKind.generate, this, BasisKind.col_eq, BasisKind.poly, Chebyshev.T_real_cos]

/-- **C48, Legendre**: for the Legendre polynomials `P` (there are such, and only one sequence) column
`n` is `P n`. -/
theorem C48_legendre : (∃ P, Spec.IsLegendre P) ∧ ∀ P, Spec.IsLegendre P →
    ∀ N ≤ BasisKind.maxBasis .legendre, ∀ xs : List ℝ, BasisKind.generate .legendre N xs =
      .ok (xs.map fun x => (List.range N).map fun n => (P n).eval x) := by
  refine ⟨⟨_, bonnet_isLegendre⟩, fun P hP N hN xs => ?_⟩
  obtain rfl := legendre_unique hP bonnet_isLegendre
  simp [BasisKind.generate, Nat.not_lt.2 hN, BasisKind.col_eq, BasisKind.poly]

/-- The functions that are combinations of the first `N` columns. -/
theorem col_span (k : BasisKind) (N : ℕ) (f : ℝ → ℝ) :
    (∃ c : ℕ → ℝ, ∀ x, f x = ∑ n ∈ range N, k.col x n * c n) ↔
      ∃ q : ℝ[X], q.degree < N ∧ ∀ x, f x = q.eval x := by
  constructor
  · rintro ⟨c, hc⟩
    refine ⟨∑ n ∈ range N, C (c n) * k.poly n, degree_combination _ k.poly_degree N c, fun x => ?_⟩
    rw [hc, eval_finset_sum]
    exact sum_congr rfl fun n _ => by rw [k.col_eq]; simp [mul_comm]
  · rintro ⟨q, hq, hf⟩
    obtain ⟨d, hd⟩ := exists_combination _ k.poly_degree N q hq
    refine ⟨d, fun x => ?_⟩
    rw [hf, hd, eval_finset_sum]
    exact sum_congr rfl fun n _ => by rw [k.col_eq]; simp [mul_comm]

/-- **C48, span**: whatever the basis, the functions the regression can fit with `N` basis functions are
exactly the polynomials of degree below `N`.  (`row x` is the row of the point `x`.) -/
theorem C48_span (k : BasisKind) (N : ℕ) (hN : N ≤ k.maxBasis) :
    ∃ row : ℝ → List ℝ, (∀ xs, k.generate N xs = .ok (xs.map row)) ∧ ∀ f : ℝ → ℝ,
      (∃ c : ℕ → ℝ, ∀ x, f x = ∑ n ∈ range N, (row x).getD n 0 * c n) ↔
        ∃ q : ℝ[X], q.degree < N ∧ ∀ x, f x = q.eval x := by
  refine ⟨fun x => (List.range N).map fun n => k.col x n,
    fun xs => by simp [BasisKind.generate, Nat.not_lt.2 hN], fun f => ?_⟩
  rw [← col_span k N f]
  have : ∀ (c : ℕ → ℝ) x, ∑ n ∈ range N, ((List.range N).map fun n => k.col x n).getD n 0 * c n
      = ∑ n ∈ range N, k.col x n * c n := fun c x => sum_congr rfl fun n hn => by
    simp [List.getD, mem_range.1 hn]
  simp only [this]

/-- Three Chebyshev columns at the point 2. -/
example : BasisKind.generate .chebyshev 3 [(2 : ℝ)] = .ok [[1, 2, 7]] := by
  norm_num [BasisKind.generate, BasisKind.maxBasis, INT_MAX, BasisKind.col, BasisKind.chebyshevCol, List.range_succ]

/-- Three Legendre columns at the point 2. -/
example : BasisKind.generate .legendre 3 [(2 : ℝ)] = .ok [[1, 2, 11 / 2]] := by
  norm_num [BasisKind.generate, BasisKind.maxBasis, BasisKind.col, BasisKind.legendreCol, List.range_succ]

/-! ## C49 -/

theorem laguerre_zero (n : ℕ) : Spec.laguerre n 0 = 1 := by
  rw [Spec.laguerre, sum_range_succ']
  simp

theorem laguerreCol_zero (n : ℕ) :
    BasisKind.laguerreCol (0 : ℝ) (n + 1) < BasisKind.laguerreCol (0 : ℝ) n := by
  induction n with
  | zero => simp [BasisKind.laguerreCol]
  | succ n ih =>
    rw [BasisKind.laguerreCol]
    have : (0 : ℝ) < (n : ℝ) + 2 := by positivity
    have h1 : (0 : ℝ) < (n : ℝ) + 1 := by positivity
    simp only [Fl.lit_real]
    push_cast
    rw [div_lt_iff₀ this]
    nlinarith

/-- **C49 is false of this code**: for every `n >= 1`, column `n` of the Laguerre basis is not the
Laguerre polynomial of degree `n` (they differ at 0). -/
theorem C49_fails (N : ℕ) (hN : N ≤ BasisKind.maxBasis .laguerre) :
    ∃ row : ℝ → List ℝ, (∀ xs, BasisKind.generate .laguerre N xs = .ok (xs.map row)) ∧
      ∀ n, 1 ≤ n → n < N → (row 0)[n]? ≠ some (Spec.laguerre n 0) := by
  refine ⟨fun x => (List.range N).map fun n => BasisKind.col .laguerre x n,
    fun xs => by simp [BasisKind.generate, Nat.not_lt.2 hN], fun n h1 hn => ?_⟩
  rw [laguerre_zero]
  simp only [List.getElem?_map, List.getElem?_range hn, Option.map_some, ne_eq, Option.some.injEq]
  have : ∀ m, BasisKind.laguerreCol (0 : ℝ) (m + 1) < 1 := by
    intro m
    induction m with
    | zero => simp [BasisKind.laguerreCol]
    | succ m ih => exact (laguerreCol_zero (m + 1)).trans ih
  obtain ⟨m, rfl⟩ : ∃ m, n = m + 1 := ⟨n - 1, by omega⟩
  exact (this m).ne

/-- The Laguerre polynomials as polynomials. -/
noncomputable def laguerrePoly (n : ℕ) : ℝ[X] :=
  ∑ k ∈ range (n + 1), C ((n.choose k : ℝ) * (-1) ^ k / (k.factorial : ℝ)) * X ^ k

theorem laguerrePoly_eval (n : ℕ) (x : ℝ) : (laguerrePoly n).eval x = Spec.laguerre n x := by
  simp [laguerrePoly, Spec.laguerre, eval_finset_sum]

theorem laguerrePoly_degree (n : ℕ) : (laguerrePoly n).degree = n := by
  have hlt : (laguerrePoly n).degree < (n + 1 : ℕ) := degree_combination (fun k => X ^ k) (fun k => degree_X_pow k) (n + 1)
    (fun k => (n.choose k : ℝ) * (-1) ^ k / (k.factorial : ℝ))
  have hc : (laguerrePoly n).coeff n ≠ 0 := by
    simp only [laguerrePoly, finset_sum_coeff, coeff_C_mul, coeff_X_pow]
    rw [sum_eq_single n (fun k _ hk => by simp [hk.symm]) (fun h => by simp at h)]
    simp
    positivity
  refine le_antisymm ?_ (le_degree_of_ne_zero hc)
  rw [degree_le_iff_coeff_zero]
  intro m hm
  exact coeff_eq_zero_of_degree_lt (hlt.trans_le (by exact_mod_cast hm))

/-- **C49, what holds**: the first column is the Laguerre polynomial `L_0`, and with `N` basis functions
the columns have the same combinations as `L_0, ..., L_{N-1}`, so a least squares fit is the same
function.  Missing: the columns from the second on are other polynomials (`C49_fails`), so the
coefficients, and every penalised fit, differ. -/
theorem C49_partial (N : ℕ) (hN : N ≤ BasisKind.maxBasis .laguerre) :
    ∃ row : ℝ → List ℝ, (∀ xs, BasisKind.generate .laguerre N xs = .ok (xs.map row)) ∧
      (∀ x, 0 < N → (row x)[0]? = some (Spec.laguerre 0 x)) ∧ ∀ f : ℝ → ℝ,
      (∃ c : ℕ → ℝ, ∀ x, f x = ∑ n ∈ range N, (row x).getD n 0 * c n) ↔
        ∃ c : ℕ → ℝ, ∀ x, f x = ∑ n ∈ range N, Spec.laguerre n x * c n := by
  refine ⟨fun x => (List.range N).map fun n => BasisKind.col .laguerre x n,
    fun xs => by simp [BasisKind.generate, Nat.not_lt.2 hN], fun x h0 => ?_, fun f => ?_⟩
  · simp [List.getElem?_range h0, BasisKind.col, BasisKind.laguerreCol, Spec.laguerre]
  · have : ∀ (c : ℕ → ℝ) x, ∑ n ∈ range N, ((List.range N).map fun n => BasisKind.col .laguerre x n).getD n 0 * c n
        = ∑ n ∈ range N, BasisKind.col .laguerre x n * c n := fun c x => sum_congr rfl fun n hn => by
      simp [List.getD, mem_range.1 hn]
    simp only [this]
    rw [col_span .laguerre N f]
    constructor
    · rintro ⟨q, hq, hf⟩
      obtain ⟨d, hd⟩ := exists_combination _ laguerrePoly_degree N q hq
      refine ⟨d, fun x => ?_⟩
      rw [hf, hd, eval_finset_sum]
      exact sum_congr rfl fun n _ => by rw [← laguerrePoly_eval]; simp [mul_comm]
    · rintro ⟨c, hc⟩
      refine ⟨∑ n ∈ range N, C (c n) * laguerrePoly n, degree_combination _ laguerrePoly_degree N c, fun x => ?_⟩
      rw [hc, eval_finset_sum]
      exact sum_congr rfl fun n _ => by rw [← laguerrePoly_eval]; simp [mul_comm]

/-- Three columns of the Laguerre basis at the point 2, against `L_1 2 = -1`. -/
example : BasisKind.generate .laguerre 3 [(2 : ℝ)] = .ok [[1, 2, 1 / 2]] ∧ Spec.laguerre 1 2 = -1 := by
  norm_num [BasisKind.generate, BasisKind.maxBasis, BasisKind.col, BasisKind.laguerreCol, List.range_succ,
    Spec.laguerre, sum_range_succ]

end Verif
