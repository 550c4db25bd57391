import Verif.Spec.DoubleSessionSpec
import Verif.Props.PathError
import Mathlib.Probability.Moments.SubGaussian

/-!
# Property C82: sessions in double precision against the Black-Scholes price
-/

set_option exponentiation.threshold 3000

namespace Verif
open Spec MeasureTheory ProbabilityTheory

/-! ## One path -/

theorem abs_exp_sub_exp_le {a b m : ℝ} (ha : a ≤ m) (hb : b ≤ m) : |Real.exp a - Real.exp b| ≤ Real.exp m * |a - b| := by
  wlog h : b ≤ a generalizing a b
  · rw [abs_sub_comm, abs_sub_comm a]
    exact this hb ha (by linarith)
  rw [abs_of_nonneg (sub_nonneg.mpr (Real.exp_le_exp.mpr h)), abs_of_nonneg (sub_nonneg.mpr h)]
  have h1 := Real.add_one_le_exp (b - a)
  have h2 : Real.exp b = Real.exp a * Real.exp (b - a) := by rw [← Real.exp_add]; ring_nf
  have h3 := Real.exp_le_exp.mpr ha
  have h4 := Real.exp_pos a
  rw [h2]
  nlinarith

theorem vanillaValue_lipschitz (call : Prop) [Decidable call] (K x y : ℝ) : |vanillaValue call K x - vanillaValue call K y| ≤ |x - y| := by
  unfold vanillaValue
  split
  · have := abs_max_sub_max_le_abs (x - K) (y - K) 0
    rwa [show x - K - (y - K) = x - y by ring] at this
  · have := abs_max_sub_max_le_abs (K - x) (K - y) 0
    rwa [show K - x - (K - y) = -(x - y) by ring, abs_neg] at this

theorem vanillaValue_le (call : Prop) [Decidable call] {K x : ℝ} (hx : 0 ≤ x) : vanillaValue call K x ≤ x + |K| := by
  unfold vanillaValue
  have k1 := le_abs_self K
  have k2 := neg_abs_le K
  have k3 := abs_nonneg K
  split <;> refine max_le (by linarith) (by linarith)

theorem vanillaValue_nonneg (call : Prop) [Decidable call] (K x : ℝ) : 0 ≤ vanillaValue call K x := by
  unfold vanillaValue
  split <;> exact le_max_right _ _

/-- No draw and no partial sum of draws exceeds `B` standard deviations. -/
def Calm (n : ℕ) (B : ℝ) (z : ℕ → ℝ) : Prop := ∀ j < n, |z j| ≤ B ∧ |∑ l ∈ Finset.range (j + 1), z l| ≤ B * Real.sqrt ((j + 1 : ℕ) : ℝ)

section
variable {S sigma r q T : ℝ} {n : ℕ} {B tau : ℝ} (hC : Comfortable S sigma r q T n B tau) {z z' : ℕ → ℝ} (hz : Calm n B z)
  (hz' : ∀ j < n, |z' j - z j| ≤ tau)
include hC hz hz'

theorem calm_exponent {j : ℕ} (hj : j < n) :
    |(r - q - sigma ^ 2 / 2) * ((j + 1) * (T / n)) + sigma * Real.sqrt (T / n) * ∑ l ∈ Finset.range (j + 1), z l| ≤ logRange sigma r q T n B tau ∧
    |(r - q - sigma ^ 2 / 2) * ((j + 1) * (T / n)) + sigma * Real.sqrt (T / n) * ∑ l ∈ Finset.range (j + 1), z' l| ≤ logRange sigma r q T n B tau ∧
    |∑ l ∈ Finset.range (j + 1), z' l - ∑ l ∈ Finset.range (j + 1), z l| ≤ n * tau := by
  obtain ⟨-, hB, ht⟩ := hC.pos
  have hd0 : 0 < T / n := lt_of_lt_of_le (by positivity) hC.step.1
  have hn0 : (0 : ℝ) < n := by
    rcases Nat.eq_zero_or_pos n with h | h
    · omega
    · exact_mod_cast h
  have hjn : ((j + 1 : ℕ) : ℝ) ≤ n := by exact_mod_cast hj
  have hdiff : |∑ l ∈ Finset.range (j + 1), z' l - ∑ l ∈ Finset.range (j + 1), z l| ≤ n * tau := by
    rw [← Finset.sum_sub_distrib]
    refine (Finset.abs_sum_le_sum_abs _ _).trans ?_
    calc ∑ l ∈ Finset.range (j + 1), |z' l - z l| ≤ ∑ l ∈ Finset.range (j + 1), tau :=
          Finset.sum_le_sum fun l hl => hz' l (by have := Finset.mem_range.mp hl; omega)
      _ = ((j + 1 : ℕ) : ℝ) * tau := by rw [Finset.sum_const, Finset.card_range, nsmul_eq_mul]
      _ ≤ n * tau := by gcongr
  have hsum : |∑ l ∈ Finset.range (j + 1), z l| ≤ B * Real.sqrt n := (hz j hj).2.trans (by gcongr)
  have hdrift : |(r - q - sigma ^ 2 / 2) * ((j + 1) * (T / n))| ≤ (|r| + |q| + sigma ^ 2 / 2) * T := by
    rw [abs_mul]
    have a1 : |r - q - sigma ^ 2 / 2| ≤ |r| + |q| + sigma ^ 2 / 2 := by
      have b1 := abs_sub (r - q) (sigma ^ 2 / 2)
      have b2 := abs_sub r q
      rw [abs_of_nonneg (by positivity : 0 ≤ sigma ^ 2 / 2)] at b1
      linarith
    have a2 : |((j : ℝ) + 1) * (T / n)| ≤ T := by
      rw [abs_of_nonneg (by positivity)]
      push_cast at hjn
      calc ((j : ℝ) + 1) * (T / n) ≤ n * (T / n) := by gcongr
        _ = T := by field_simp
    gcongr
  have key : ∀ x : ℝ, |x| ≤ B * Real.sqrt n + n * tau →
      |(r - q - sigma ^ 2 / 2) * ((j + 1) * (T / n)) + sigma * Real.sqrt (T / n) * x| ≤ logRange sigma r q T n B tau := by
    intro x hx
    refine (abs_add_le _ _).trans (add_le_add hdrift ?_)
    rw [abs_mul, abs_mul, abs_of_nonneg (Real.sqrt_nonneg _)]
    gcongr
  refine ⟨key _ (hsum.trans (by linarith [mul_nonneg hn0.le ht])), key _ ?_, hdiff⟩
  have := abs_add_le (∑ l ∈ Finset.range (j + 1), z' l - ∑ l ∈ Finset.range (j + 1), z l) (∑ l ∈ Finset.range (j + 1), z l)
  rw [sub_add_cancel] at this
  linarith

theorem calm_work {j : ℕ} (hj : j < n) : gbmWork sigma r q T n z' j ≤ workBound sigma r q T n B tau := by
  obtain ⟨-, hB, ht⟩ := hC.pos
  have hd0 : 0 < T / n := lt_of_lt_of_le (by positivity) hC.step.1
  unfold gbmWork workBound
  calc ∑ l ∈ Finset.range (j + 1), (1 + (|r| + |q| + sigma ^ 2 / 2) * (T / n) + |sigma| * Real.sqrt (T / n) * |z' l|)
      ≤ ∑ l ∈ Finset.range (j + 1), (1 + (|r| + |q| + sigma ^ 2 / 2) * (T / n) + |sigma| * Real.sqrt (T / n) * (B + tau)) := by
        refine Finset.sum_le_sum fun l hl => ?_
        have hl' : l < n := by have := Finset.mem_range.mp hl; omega
        have a1 := abs_add_le (z' l - z l) (z l)
        rw [sub_add_cancel] at a1
        have a2 := hz' l hl'
        have a3 := (hz l hl').1
        have : |z' l| ≤ B + tau := by linarith
        gcongr
    _ = ((j + 1 : ℕ) : ℝ) * (1 + (|r| + |q| + sigma ^ 2 / 2) * (T / n) + |sigma| * Real.sqrt (T / n) * (B + tau)) := by
        rw [Finset.sum_const, Finset.card_range, nsmul_eq_mul]
    _ ≤ _ := by
        have : ((j + 1 : ℕ) : ℝ) ≤ n := by exact_mod_cast hj
        gcongr

theorem calm_moderate (hn : 0 < n) : Moderate S sigma r q T n z' := by
  obtain ⟨hS, hB, ht⟩ := hC.pos
  have hR := hC.range
  have hr0 : 0 ≤ logRange sigma r q T n B tau := (abs_nonneg _).trans (calm_exponent hC hz hz' hn).1
  have hexp : ∀ x : ℝ, |x| ≤ logRange sigma r q T n B tau → Real.exp (-300) ≤ S * Real.exp x ∧ S * Real.exp x ≤ Real.exp 300 := by
    intro x hx
    have e : S * Real.exp x = Real.exp (Real.log S + x) := by rw [Real.exp_add, Real.exp_log hS]
    have a := abs_add_le (Real.log S) x
    have b := abs_le.mp (a.trans ((add_le_add le_rfl hx).trans hR))
    rw [e]
    exact ⟨Real.exp_le_exp.mpr b.1, Real.exp_le_exp.mpr b.2⟩
  refine ⟨by simpa using hexp 0 (by simpa using hr0), fun j hj => hexp _ (calm_exponent hC hz hz' hj).2.1, fun j hj => ?_, hC.vol, hC.rate, hC.coupon, hC.step,
    (calm_work hC hz hz' (by omega)).trans hC.work⟩
  have a1 := abs_add_le (z' j - z j) (z j)
  rw [sub_add_cancel] at a1
  have a2 := hz' j hj
  have a3 := (hz j hj).1
  exact (by linarith : |z' j| ≤ B + tau).trans hC.draws

theorem calm_price (hn : 0 < n) : 0 < gbmPath S sigma r q T n z' (n - 1) ∧ gbmPath S sigma r q T n z' (n - 1) ≤ S * Real.exp (logRange sigma r q T n B tau) ∧
    |gbmPath S sigma r q T n z' (n - 1) - gbmPath S sigma r q T n z (n - 1)| ≤ S * Real.exp (logRange sigma r q T n B tau) * (|sigma| * Real.sqrt (T / n) * (n * tau)) := by
  obtain ⟨hS, hB, ht⟩ := hC.pos
  obtain ⟨h1, h2, h3⟩ := calm_exponent hC hz hz' (j := n - 1) (by omega)
  refine ⟨mul_pos hS (Real.exp_pos _), ?_, ?_⟩
  · unfold gbmPath
    have := (abs_le.mp h2).2
    gcongr
  · unfold gbmPath
    rw [← mul_sub, abs_mul, abs_of_pos hS, mul_assoc S (Real.exp _)]
    refine mul_le_mul_of_nonneg_left ((abs_exp_sub_exp_le (abs_le.mp h2).2 (abs_le.mp h1).2).trans ?_) hS.le
    refine mul_le_mul_of_nonneg_left ?_ (Real.exp_pos _).le
    rw [add_sub_add_left_eq_sub, ← mul_sub, abs_mul, abs_mul, abs_of_nonneg (Real.sqrt_nonneg _)]
    gcongr

theorem calm_payoffError (hn : 0 < n) (K : ℝ) : payoffError S sigma r q T K n z' ≤
    2 ^ (-49 : ℤ) * workBound sigma r q T n B tau * (S * Real.exp (logRange sigma r q T n B tau)) + 2 ^ (-51 : ℤ) * (S * Real.exp (logRange sigma r q T n B tau) + |K|) := by
  obtain ⟨h1, h2, -⟩ := calm_price hC hz hz' hn
  have h3 := calm_work hC hz hz' (j := n - 1) (by omega)
  have hd0 : 0 < T / n := lt_of_lt_of_le (by positivity) hC.step.1
  have h4 : 0 ≤ gbmWork sigma r q T n z' (n - 1) := by
    unfold gbmWork
    refine Finset.sum_nonneg fun l _ => ?_
    positivity
  have h5 := h4.trans h3
  unfold payoffError
  gcongr

end

/-! ## The draws -/

theorem gaussian_tail {Ω : Type} [MeasurableSpace Ω] {P : Measure Ω} [IsProbabilityMeasure P] {X : Ω → ℝ} (hX : Measurable X) {v : NNReal}
    (h : P.map X = gaussianReal 0 v) {B : ℝ} (hB : 0 ≤ B) : P.real {ω | B ≤ |X ω|} ≤ 2 * Real.exp (-(B ^ 2) / (2 * v)) := by
  have hs : HasSubgaussianMGF X v P := by
    constructor
    · intro t
      have := integrable_exp_mul_gaussianReal (μ := 0) (v := v) t
      rw [← h] at this
      exact this.comp_measurable hX
    · intro t
      rw [mgf_gaussianReal h]
      simp
  have h1 := hs.measure_ge_le hB
  have h2 := hs.neg.measure_ge_le hB
  have hset : {ω | B ≤ |X ω|} ⊆ {ω | B ≤ X ω} ∪ {ω | B ≤ (-X) ω} := by
    intro ω hω
    exact le_abs.mp (show B ≤ |X ω| from hω)
  have := (measureReal_mono (μ := P) hset).trans (measureReal_union_le _ _)
  linarith

/-- With normal draws a path is calm up to a small probability. -/
theorem calm_probability {Ω : Type} [MeasurableSpace Ω] {P : Measure Ω} [IsProbabilityMeasure P] {Z : ℕ → Ω → ℝ} (h : IidNormal P Z) {next : Ω → Ω}
    (hp : MeasurePreserving next P P) {B : ℝ} (hB : 0 ≤ B) (n N : ℕ) :
    P.real {ω | ¬ ∀ m < N, Calm n B fun l => Z l (next^[m] ω)} ≤ rareEvent n N B := by
  have one : ∀ m j, P.real (next^[m] ⁻¹' ({ω | B ≤ |Z j ω|} ∪ {ω | B * Real.sqrt ((j + 1 : ℕ) : ℝ) ≤ |drawSum Z 0 (j + 1) ω|})) ≤ 4 * Real.exp (-(B ^ 2) / 2) := by
    intro m j
    have m1 : MeasurableSet {ω | B ≤ |Z j ω|} := measurableSet_le measurable_const (h.measurable j).abs
    have m2 : MeasurableSet {ω | B * Real.sqrt ((j + 1 : ℕ) : ℝ) ≤ |drawSum Z 0 (j + 1) ω|} := measurableSet_le measurable_const (h.measurable_drawSum 0 (j + 1)).abs
    rw [measureReal_def, (hp.iterate m).measure_preimage (m1.union m2).nullMeasurableSet, ← measureReal_def]
    refine (measureReal_union_le _ _).trans ?_
    have t1 := gaussian_tail (h.measurable j) (h.law j) hB
    have t2 := gaussian_tail (h.measurable_drawSum 0 (j + 1)) (h.map_drawSum 0 (j + 1)) (B := B * Real.sqrt ((j + 1 : ℕ) : ℝ)) (by positivity)
    have e1 : -(B ^ 2) / (2 * ((1 : NNReal) : ℝ)) = -(B ^ 2) / 2 := by simp
    have e2 : -((B * Real.sqrt ((j + 1 : ℕ) : ℝ)) ^ 2) / (2 * (((j + 1 : ℕ) : NNReal) : ℝ)) = -(B ^ 2) / 2 := by
      rw [mul_pow, Real.sq_sqrt (by positivity)]
      push_cast
      field_simp
    rw [e1] at t1
    rw [e2] at t2
    linarith
  have hset : {ω | ¬ ∀ m < N, Calm n B fun l => Z l (next^[m] ω)} ⊆ ⋃ m ∈ Finset.range N, ⋃ j ∈ Finset.range n,
      next^[m] ⁻¹' ({ω | B ≤ |Z j ω|} ∪ {ω | B * Real.sqrt ((j + 1 : ℕ) : ℝ) ≤ |drawSum Z 0 (j + 1) ω|}) := by
    intro ω hω
    have hω' : ¬ ∀ m < N, Calm n B fun l => Z l (next^[m] ω) := hω
    unfold Calm at hω'
    push Not at hω'
    obtain ⟨m, hm, j, hj, hh⟩ := hω'
    simp only [Set.mem_iUnion, Finset.mem_range]
    refine ⟨m, hm, j, hj, ?_⟩
    by_cases hb : |Z j (next^[m] ω)| ≤ B
    · right
      have := (hh hb).le
      show _ ≤ |drawSum Z 0 (j + 1) (next^[m] ω)|
      unfold drawSum
      rwa [Nat.zero_add, ← Finset.range_eq_Ico]
    · left
      exact (not_le.mp hb).le
  refine (measureReal_mono hset (measure_ne_top _ _)).trans ((measureReal_biUnion_finset_le _ _).trans ?_)
  calc _ ≤ ∑ m ∈ Finset.range N, ∑ j ∈ Finset.range n, 4 * Real.exp (-(B ^ 2) / 2) :=
        Finset.sum_le_sum fun m _ => (measureReal_biUnion_finset_le _ _).trans (Finset.sum_le_sum fun j _ => one m j)
    _ = rareEvent n N B := by
        simp only [Finset.sum_const, Finset.card_range, nsmul_eq_mul, rareEvent]
        ring

theorem num_zero' : (lit 0 : Dbl .binary64) = .num 0 := Dbl.lit_zero

theorem num_one' : (lit 1 : Dbl .binary64) = .num 1 := by
  rw [Dbl.lit_def]
  have := binary64_doubleAccurate.int 1 (by norm_num)
  push_cast at this ⊢
  rw [this]

section
variable {E : Type} {e' : Engine E (Dbl .binary64)} {e : Engine E ℝ} {B tau : ℝ} (hE : NormalsClose e' e B tau)
include hE

/-- Both engines make their draws in lock step. -/
theorem close_draws : ∀ {zs : List ℝ} {s s' : E}, Draws (e.gen.draw .stdNormal) s zs s' → (∀ z ∈ zs, |z| ≤ B) →
    ∃ zs' : List ℝ, Draws (e'.gen.draw .stdNormal) s (zs'.map fun x : ℝ => .num x) s' ∧ zs'.length = zs.length ∧ ∀ j < zs.length, |zs'.getD j 0 - zs.getD j 0| ≤ tau
  | [], s, s', hD, _ => by
    cases hD
    exact ⟨[], .nil _, rfl, fun j hj => absurd hj (by simp)⟩
  | z :: zs, s, s', hD, hz => by
    cases hD with
    | @cons _ s1 _ _ _ h1 h2 =>
    obtain ⟨zs', a1, a2, a3⟩ := close_draws h2 fun x hx => hz x (by simp [hx])
    have es : e.sample (.normal 0 1) s = (z, s1) := by
      have h0 : e.gen.draw .stdNormal s = (.ok (e.sample (.normal 0 1) s).1, (e.sample (.normal 0 1) s).2) := by
        show (Res.ok (e.sample (Dist.law .stdNormal) s).1, (e.sample (Dist.law .stdNormal) s).2) = _
        simp [Dist.law]
      rw [h0] at h1
      injection h1 with h3 h4
      injection h3 with h3
      exact Prod.ext h3 h4
    obtain ⟨z', b1, b2⟩ := hE.sample s (by rw [es]; exact hz z (by simp))
    rw [es] at b1 b2
    refine ⟨z' :: zs', .cons ?_ a1, by simp [a2], fun j hj => ?_⟩
    · show (Res.ok (e'.sample (Dist.law .stdNormal) s).1, (e'.sample (Dist.law .stdNormal) s).2) = _
      have : (Dist.law .stdNormal : Dist.StdLaw (Dbl .binary64)) = .normal (.num 0) (.num 1) := by
        rw [← num_zero', ← num_one']
        rfl
      rw [this, b1]
    · cases j with
      | zero => simpa using b2
      | succ j => simpa using a3 j (by simpa using hj)

/-- The draws for a number of paths. -/
theorem close_paths {n : ℕ} {Z : ℕ → E → ℝ} {next : E → E}
    (hd : ∀ s, Draws (e.gen.draw .stdNormal) (e.gen.newDist .stdNormal s) ((List.range n).map fun j => Z j s) (next s)) :
    ∀ (N : ℕ) (x : E), (∀ m < N, Calm n B fun l => Z l (next^[m] x)) →
      ∃ zss : List (List ℝ), PathDraws e'.gen n x zss (next^[N] x) ∧
        List.Forall₂ (fun zs y => Calm n B (fun l => Z l y) ∧ ∀ j < n, |zs.getD j 0 - Z j y| ≤ tau) zss (List.iterate next x N)
  | 0, x, _ => ⟨[], .nil _, .nil⟩
  | N + 1, x, hc => by
    obtain ⟨zss, h1, h2⟩ := close_paths hd N (next x) fun m hm => hc (m + 1) (by omega)
    have h0 := hc 0 (by omega)
    obtain ⟨zs, a1, a2, a3⟩ := close_draws hE (hd x) (by
      intro z hz
      obtain ⟨j, hj, rfl⟩ := List.mem_map.mp hz
      exact (h0 j (List.mem_range.mp hj)).1)
    have hf : e'.gen.newDist .stdNormal x = e.gen.newDist .stdNormal x := by
      show e'.forget (Dist.law .stdNormal) x = e.forget (Dist.law .stdNormal) x
      have l1 : (Dist.law .stdNormal : Dist.StdLaw (Dbl .binary64)) = .normal (.num 0) (.num 1) := by
        rw [← num_zero', ← num_one']
        rfl
      have l2 : (Dist.law .stdNormal : Dist.StdLaw ℝ) = .normal 0 1 := by simp [Dist.law]
      rw [l1, l2]
      exact hE.forget x
    refine ⟨zs :: zss, .cons (by simpa using a2) (hf ▸ a1) h1, .cons ⟨h0, fun j hj => ?_⟩ h2⟩
    have := a3 j (by simpa using hj)
    simpa [hj] using this

end

/-! ## Sessions -/

theorem forall₂_sum_le {α β : Type} {R : α → β → Prop} {f : α → ℝ} {g : β → ℝ} {c : ℝ} (h : ∀ a b, R a b → |f a - g b| ≤ c) :
    ∀ {l : List α} {l' : List β}, List.Forall₂ R l l' → |(l.map f).sum - (l'.map g).sum| ≤ l.length * c
  | _, _, .nil => by simp
  | _, _, .cons (a := a) (b := b) (l₁ := l) (l₂ := l') h1 h2 => by
    have ih := forall₂_sum_le h h2
    have := abs_add_le (f a - g b) ((l.map f).sum - (l'.map g).sum)
    simp only [List.map_cons, List.sum_cons, List.length_cons, Nat.cast_add, Nat.cast_one]
    rw [add_sub_add_comm]
    have := h _ _ h1
    linarith

theorem list_sum_le {α : Type} {f : α → ℝ} {c : ℝ} {l : List α} (h : ∀ a ∈ l, f a ≤ c) : (l.map f).sum ≤ l.length * c := by
  have := List.sum_le_card_nsmul (l.map f) c (by simpa using h)
  simpa using this

section
variable {E Q : Type} (env : Env E Q (Dbl .binary64)) {e : Engine E ℝ}

/-- The exact price for a sequence of calm paths. -/
theorem exact_price {n : ℕ} (hn0 : 0 < n) (hn : n ≤ INT_MAX) {Z : ℕ → E → ℝ} {next : E → E}
    (hd : ∀ s, Draws (e.gen.draw .stdNormal) (e.gen.newDist .stdNormal s) ((List.range n).map fun j => Z j s) (next s))
    (S sigma r T K : ℝ) (q : Option ℝ) {ty : PayoffType} (N : ℕ) (hN : N ≤ INT_MAX) (x : E) :
    MC.singlePath (modelSource e.gen n ⟨S, sigma, q, r⟩ .gbm) (Eff.lift (.ok r)) (Payoff.vanilla ty K : Payoff ℝ).eval1 T N x =
      (.ok (discountedMean r T ((List.iterate next x N).map fun y => vanillaValue (ty = .call) K (gbmPath S sigma r (q.getD 0) T n (fun l => Z l y) (n - 1)))), next^[N] x) := by
  have hmat : ∀ y, Sim.maturity e.gen n ⟨S, sigma, q, r⟩ T .gbm y = (.ok (gbmPath S sigma r (q.getD 0) T n (fun l => Z l y) (n - 1)), next y) := by
    intro y
    unfold Sim.maturity
    rw [Eff.bind_of_ok (prices_of_draws hn (hd y) ⟨S, sigma, q, r⟩ T)]
    have : vback ((List.range n).map fun k : ℕ => S * Real.exp ((r - q.getD 0 - sigma ^ 2 / 2) * ((k + 1) * (T / n)) +
        sigma * Real.sqrt (T / n) * ∑ j ∈ Finset.range (k + 1), Z j y)) = .ok (gbmPath S sigma r (q.getD 0) T n (fun l => Z l y) (n - 1)) := by
      unfold vback
      rw [List.getLast?_map, List.getLast?_eq_getElem?]
      simp [hn0, gbmPath]
    rw [this]
    rfl
  have hD : ∀ (N : ℕ) (x : E), Draws (Sim.maturity e.gen n ⟨S, sigma, q, r⟩ T .gbm) x
      ((List.iterate next x N).map fun y => gbmPath S sigma r (q.getD 0) T n (fun l => Z l y) (n - 1)) (next^[N] x) := by
    intro N
    induction N with
    | zero => exact fun x => .nil _
    | succ N ih => exact fun x => .cons (hmat x) (ih (next x))
  have hP : ∀ l : List ℝ, Pays (Payoff.vanilla ty K : Payoff ℝ).eval1 l (l.map (vanillaValue (ty = .call) K)) := by
    intro l
    induction l with
    | nil => exact .nil
    | cons a l ih =>
      refine .cons ?_ ih
      unfold Payoff.eval1 vanillaValue
      by_cases hc : ty = .call <;> simp [hc]
  have := C23_singlePath_mean (modelSource e.gen n ⟨S, sigma, q, r⟩ .gbm) (Eff.lift (.ok r)) (Payoff.vanilla ty K : Payoff ℝ).eval1 (T := T) (r := r) rfl
    (hD N x) (by simpa using hN) (hP _)
  simpa [List.map_map, Function.comp_def] using this

/-- When all paths are calm, the session in doubles returns a price close to the exact price. -/
theorem calm_session {i : Session (Dbl .binary64)} {c : Session.Choices} {o : OptObj (Dbl .binary64)} (h : AcceptedSession i c .gbm o)
    (hf : i.factory = .european) {S sigma r T K : ℝ} {q : Option ℝ} (hS : i.S = .num S) (hs : i.sigma = .num sigma)
    (hq : i.coupon = q.map fun x : ℝ => .num x) (hr : i.r = .num r) (hK : lastSet i.params "K" = some (.dbl (.num K)))
    (hT : lastSet i.params "T" = some (.dbl (.num T))) (h1 : 0 < i.dim) (h2 : i.dim ≤ INT_MAX) (hrT : |r * T| ≤ 1) (hK2 : |K| ≤ 2 ^ (500 : ℤ))
    {B tau : ℝ} (hC : Comfortable S sigma r (q.getD 0) T i.dim B tau) (hE : NormalsClose env.engine e B tau) {Z : ℕ → E → ℝ} {next : E → E}
    (hd : ∀ s, Draws (e.gen.draw .stdNormal) (e.gen.newDist .stdNormal s) ((List.range i.dim).map fun j => Z j s) (next s))
    {N : ℕ} (hN : 0 < N) (hN2 : N ≤ INT_MAX) (s : Sys E Q (Dbl .binary64)) (x : E) (hx : ∀ m < N, Calm i.dim B fun l => Z l (next^[m] x)) :
    ∃ y : ℝ, (started env c i s N x).1 = .ok (.num y) ∧
      |y - discountedMean r T ((List.iterate next x N).map fun y => vanillaValue (i.ty = .call) K (gbmPath S sigma r (q.getD 0) T i.dim (fun l => Z l y) (i.dim - 1)))| ≤
        sessionGap S sigma r (q.getD 0) T K i.dim N B tau := by
  obtain ⟨zss, d1, d2⟩ := close_paths hE hd N x hx
  have hl : zss.length = N := by simpa using d2.length_eq
  have hall : ∀ zs ∈ zss, ∃ y, Calm i.dim B (fun l => Z l y) ∧ ∀ j < i.dim, |zs.getD j 0 - Z j y| ≤ tau := by
    intro zs hz
    obtain ⟨k, hk, rfl⟩ := List.mem_iff_getElem.mp hz
    exact ⟨_, d2.get hk (by rw [← d2.length_eq]; exact hk)⟩
  have hm : ∀ zs ∈ zss, Moderate S sigma r (q.getD 0) T i.dim fun l => zs.getD l 0 := by
    intro zs hz
    obtain ⟨y, c1, c2⟩ := hall zs hz
    exact calm_moderate hC c1 c2 h1
  obtain ⟨y, y1, y2⟩ := C81_european env h hf hS hs hq hr hK hT h1 h2 hrT hK2 d1 (hl ▸ hN) (hl ▸ hN2) hm s
  rw [hl] at y1 y2
  refine ⟨y, y1, ?_⟩
  have hNr : (0 : ℝ) < N := by exact_mod_cast hN
  have hNm : (N : ℝ) ≤ 2 ^ 31 := by
    have : (N : ℝ) ≤ INT_MAX := by exact_mod_cast hN2
    exact this.trans (by norm_num [INT_MAX])
  set M := S * Real.exp (logRange sigma r (q.getD 0) T i.dim B tau) with hM
  set W := workBound sigma r (q.getD 0) T i.dim B tau with hW
  set D := |sigma| * Real.sqrt (T / i.dim) * (i.dim * tau) with hD
  have hM0 : 0 ≤ M := mul_nonneg hC.pos.1.le (Real.exp_pos _).le
  have hd0 : 0 < T / i.dim := lt_of_lt_of_le (by positivity) hC.step.1
  have hW0 : 0 ≤ W := by
    have := hC.pos.2.1
    have := hC.pos.2.2
    rw [hW]
    unfold workBound
    positivity
  have hD0 : 0 ≤ D := by
    have := hC.pos.2.2
    positivity
  -- the payoffs for the two sequences of draws
  have s1 : |(zss.map fun zs => vanillaValue (i.ty = .call) K (gbmPath S sigma r (q.getD 0) T i.dim (fun l => zs.getD l 0) (i.dim - 1))).sum -
      ((List.iterate next x N).map fun y => vanillaValue (i.ty = .call) K (gbmPath S sigma r (q.getD 0) T i.dim (fun l => Z l y) (i.dim - 1))).sum| ≤ zss.length * (M * D) := by
    refine forall₂_sum_le (fun zs y hzy => ?_) d2
    exact (vanillaValue_lipschitz _ _ _ _).trans (calm_price hC hzy.1 hzy.2 h1).2.2
  have s2 : (zss.map fun zs => payoffError S sigma r (q.getD 0) T K i.dim fun l => zs.getD l 0).sum ≤
      zss.length * (2 ^ (-49 : ℤ) * W * M + 2 ^ (-51 : ℤ) * (M + |K|)) := by
    refine list_sum_le fun zs hz => ?_
    obtain ⟨y, c1, c2⟩ := hall zs hz
    exact calm_payoffError hC c1 c2 h1 K
  have s3 : (zss.map fun zs => vanillaValue (i.ty = .call) K (gbmPath S sigma r (q.getD 0) T i.dim (fun l => zs.getD l 0) (i.dim - 1))).sum ≤ zss.length * (M + |K|) := by
    refine list_sum_le fun zs hz => ?_
    obtain ⟨y, c1, c2⟩ := hall zs hz
    obtain ⟨p1, p2, -⟩ := calm_price hC c1 c2 h1
    exact (vanillaValue_le _ p1.le).trans (by linarith)
  unfold discountedMean at y2 ⊢
  unfold sessionGap
  rw [← hM, ← hW, ← hD]
  simp only [List.length_map, List.length_iterate, hl] at y2 s1 s2 s3 ⊢
  have hdp := Real.exp_pos (-(r * T))
  generalize Real.exp (-(r * T)) = d at *
  generalize (zss.map fun zs => vanillaValue (i.ty = .call) K (gbmPath S sigma r (q.getD 0) T i.dim (fun l => zs.getD l 0) (i.dim - 1))).sum = f at *
  generalize (zss.map fun zs => payoffError S sigma r (q.getD 0) T K i.dim fun l => zs.getD l 0).sum = p at *
  generalize ((List.iterate next x N).map fun y => vanillaValue (i.ty = .call) K (gbmPath S sigma r (q.getD 0) T i.dim (fun l => Z l y) (i.dim - 1))).sum = g at *
  clear_value M W D
  have t1 : |d * (f / N) - d * (g / N)| ≤ d * (M * D) := by
    rw [← mul_sub, ← sub_div, abs_mul, abs_div, abs_of_pos hdp, abs_of_pos hNr]
    have : |f - g| / N ≤ M * D := by
      rw [div_le_iff₀ hNr]
      linarith
    gcongr
  have t2 : d * (p / N) ≤ d * (2 ^ (-49 : ℤ) * W * M + 2 ^ (-51 : ℤ) * (M + |K|)) := by
    have : p / N ≤ 2 ^ (-49 : ℤ) * W * M + 2 ^ (-51 : ℤ) * (M + |K|) := by
      rw [div_le_iff₀ hNr]
      linarith
    gcongr
  have t3 : d * (f / N) ≤ d * (M + |K|) := by
    have : f / N ≤ M + |K| := by
      rw [div_le_iff₀ hNr]
      linarith
    gcongr
  have u1 : ((N : ℝ) + 9) * 2 ^ (-52 : ℤ) ≤ 1 := by
    calc ((N : ℝ) + 9) * 2 ^ (-52 : ℤ) ≤ (2 ^ 31 + 9) * 2 ^ (-52 : ℤ) := by gcongr
      _ ≤ 1 := by norm_num
  have hMK : 0 ≤ M + |K| := by positivity
  have u0 : 0 ≤ ((N : ℝ) + 9) * 2 ^ (-52 : ℤ) := by positivity
  have v1 : (1 + ((N : ℝ) + 9) * 2 ^ (-52 : ℤ)) * (d * (p / N)) ≤ 2 * (d * (2 ^ (-49 : ℤ) * W * M + 2 ^ (-51 : ℤ) * (M + |K|))) := by
    refine (mul_le_mul_of_nonneg_left t2 (by linarith)).trans (mul_le_mul_of_nonneg_right (by linarith) (by positivity))
  have v2 : ((N : ℝ) + 9) * 2 ^ (-52 : ℤ) * (d * (f / N)) ≤ ((N : ℝ) + 9) * 2 ^ (-52 : ℤ) * (d * (M + |K|)) := mul_le_mul_of_nonneg_left t3 u0
  have e1 : d * (M * (2 ^ (-48 : ℤ) * W + D) + ((N : ℝ) + 13) * 2 ^ (-52 : ℤ) * (M + |K|)) =
      2 * (d * (2 ^ (-49 : ℤ) * W * M + 2 ^ (-51 : ℤ) * (M + |K|))) + ((N : ℝ) + 9) * 2 ^ (-52 : ℤ) * (d * (M + |K|)) + d * (M * D) := by
    have a1 : (2 : ℝ) ^ (-48 : ℤ) = 2 * 2 ^ (-49 : ℤ) := by norm_num
    have a2 : (2 : ℝ) ^ (-51 : ℤ) = 2 * 2 ^ (-52 : ℤ) := by norm_num
    rw [a1, a2]
    ring
  have := abs_sub_le y (d * (f / N)) (d * (g / N))
  rw [e1]
  generalize (2 : ℝ) ^ (-1070 : ℤ) = t at *
  linarith

variable [MeasurableSpace E] {μ : Measure E} [IsProbabilityMeasure μ] {count : ℝ → Measure ℕ}

/-- **C82.** A session that prices a European option on a GBM in double precision returns, up to `sessionGap`, the price of the same program in
exact arithmetic, unless some of the normal numbers are extraordinarily large. -/
theorem C82_exact (he : RandomEngine e μ count) {i : Session (Dbl .binary64)} {c : Session.Choices} {o : OptObj (Dbl .binary64)} (h : AcceptedSession i c .gbm o)
    (hf : i.factory = .european) {S sigma r T K : ℝ} {q : Option ℝ} (hS : i.S = .num S) (hs : i.sigma = .num sigma)
    (hq : i.coupon = q.map fun x : ℝ => .num x) (hr : i.r = .num r) (hK : lastSet i.params "K" = some (.dbl (.num K)))
    (hT : lastSet i.params "T" = some (.dbl (.num T))) (h1 : 0 < i.dim) (h2 : i.dim ≤ INT_MAX) (hrT : |r * T| ≤ 1) (hK2 : |K| ≤ 2 ^ (500 : ℤ))
    {B tau : ℝ} (hC : Comfortable S sigma r (q.getD 0) T i.dim B tau) (hE : NormalsClose env.engine e B tau)
    {N : ℕ} (hN : 0 < N) (hN2 : N ≤ INT_MAX) (s : Sys E Q (Dbl .binary64)) :
    μ.real {x | ¬ ∃ y Y : ℝ, (started env c i s N x).1 = .ok (.num y) ∧
      (MC.singlePath (modelSource e.gen i.dim ⟨S, sigma, q, r⟩ .gbm) (Eff.lift (.ok r)) (Payoff.vanilla i.ty K : Payoff ℝ).eval1 T N x).1 = .ok Y ∧
      |y - Y| ≤ sessionGap S sigma r (q.getD 0) T K i.dim N B tau} ≤ rareEvent i.dim N B := by
  obtain ⟨Z, next, hZ, hp, hd⟩ := exists_normals (randomSource_engine he)
  refine (measureReal_mono ?_ (measure_ne_top _ _)).trans (calm_probability hZ (hp i.dim) hC.pos.2.1 i.dim N)
  intro x hx hcalm
  refine hx ?_
  obtain ⟨y, y1, y2⟩ := calm_session env h hf hS hs hq hr hK hT h1 h2 hrT hK2 hC hE (hd i.dim) hN hN2 s x hcalm
  exact ⟨y, _, y1, by rw [exact_price h1 h2 (hd i.dim) S sigma r T K q N hN2 x], y2⟩

/-- If the exact program deviates with small probability, so does the session. -/
theorem deviates_double (he : RandomEngine e μ count) {i : Session (Dbl .binary64)} {c : Session.Choices} {o : OptObj (Dbl .binary64)} (h : AcceptedSession i c .gbm o)
    (hf : i.factory = .european) {S sigma r T K : ℝ} {q : Option ℝ} (hS : i.S = .num S) (hs : i.sigma = .num sigma)
    (hq : i.coupon = q.map fun x : ℝ => .num x) (hr : i.r = .num r) (hK : lastSet i.params "K" = some (.dbl (.num K)))
    (hT : lastSet i.params "T" = some (.dbl (.num T))) (h1 : 0 < i.dim) (h2 : i.dim ≤ INT_MAX) (hrT : |r * T| ≤ 1) (hK2 : |K| ≤ 2 ^ (500 : ℤ))
    {B tau : ℝ} (hC : Comfortable S sigma r (q.getD 0) T i.dim B tau) (hE : NormalsClose env.engine e B tau)
    {N : ℕ} (hN : 0 < N) (hN2 : N ≤ INT_MAX) (s : Sys E Q (Dbl .binary64)) {Y : E → ℝ}
    (hY : ∀ x, ∃ s', MC.singlePath (modelSource e.gen i.dim ⟨S, sigma, q, r⟩ .gbm) (Eff.lift (.ok r)) (Payoff.vanilla i.ty K : Payoff ℝ).eval1 T N x = (.ok (Y x), s'))
    {mean ε p : ℝ} (hD : μ.real {x | ε ≤ |Y x - mean|} ≤ p) :
    μ.real {x | ¬ ∃ y : ℝ, (started env c i s N x).1 = .ok (.num y) ∧ |y - mean| < ε + sessionGap S sigma r (q.getD 0) T K i.dim N B tau} ≤ p + rareEvent i.dim N B := by
  have h0 := C82_exact env he h hf hS hs hq hr hK hT h1 h2 hrT hK2 hC hE hN hN2 s
  refine (measureReal_mono ?_ (measure_ne_top _ _)).trans ((measureReal_union_le _ _).trans (add_le_add hD h0))
  intro x hx
  by_contra hn
  rw [Set.mem_union, not_or] at hn
  obtain ⟨n1, n2⟩ := hn
  simp only [Set.mem_setOf_eq, not_le, not_not] at n1 n2
  obtain ⟨y, Y', y1, y2, y3⟩ := n2
  obtain ⟨s', e'⟩ := hY x
  rw [e'] at y2
  injection y2 with y2
  refine hx ⟨y, y1, ?_⟩
  have := abs_sub_le y (Y x) mean
  rw [← y2] at y3
  linarith

/-- **C82.** A put: the price returned in double precision is off the Black-Scholes price by `ε + sessionGap` or more (or is no number at all)
with a probability of at most `2 exp(-2 N ε² / (e^{-rT} K)²)` plus `rareEvent`. -/
theorem C82_put (he : RandomEngine e μ count) {i : Session (Dbl .binary64)} {c : Session.Choices} {o : OptObj (Dbl .binary64)} (h : AcceptedSession i c .gbm o)
    (hf : i.factory = .european) (hty : i.ty = .put) {S sigma r T K : ℝ} {q : Option ℝ} (hS : i.S = .num S) (hs : i.sigma = .num sigma)
    (hq : i.coupon = q.map fun x : ℝ => .num x) (hr : i.r = .num r) (hK : lastSet i.params "K" = some (.dbl (.num K)))
    (hT : lastSet i.params "T" = some (.dbl (.num T))) (h1 : 0 < i.dim) (h2 : i.dim ≤ INT_MAX) (hrT : |r * T| ≤ 1) (hσ : 0 < sigma) (hK0 : 0 < K)
    (hK2 : K ≤ 2 ^ (500 : ℤ)) {B tau : ℝ} (hC : Comfortable S sigma r (q.getD 0) T i.dim B tau) (hE : NormalsClose env.engine e B tau)
    {N : ℕ} (hN : 0 < N) (hN2 : N ≤ INT_MAX) (s : Sys E Q (Dbl .binary64)) {ε : ℝ} (hε : 0 ≤ ε) :
    μ.real {x | ¬ ∃ y : ℝ, (started env c i s N x).1 = .ok (.num y) ∧
      |y - blackScholesPut S sigma r (q.getD 0) T K| < ε + sessionGap S sigma r (q.getD 0) T K i.dim N B tau} ≤
      2 * Real.exp (-(2 * N * ε ^ 2) / (Real.exp (-(r * T)) * K) ^ 2) + rareEvent i.dim N B := by
  letI : FlInf ℝ := ⟨0⟩
  obtain ⟨Z, hZ, hp⟩ := exists_draws (randomSource_engine he)
  have hS0 := hC.pos.1
  have hT0 : 0 < T := by
    have h3 : 0 < T / i.dim := lt_of_lt_of_le (by positivity) hC.step.1
    have h4 : (0 : ℝ) < i.dim := by exact_mod_cast h1
    exact (div_pos_iff_of_pos_right h4).mp h3
  have ha := C70_singlePath (randomSource_engine he) h1 h2 (k := .gbm) (T := T) trivial (f := fun x => max (K - x) 0) (by fun_prop)
    (pay := (Payoff.vanilla i.ty K : Payoff ℝ).eval1) (fun x => by rw [hty]; simp [Payoff.eval1]) (hp ⟨S, sigma, q, r⟩ T i.dim h2)
  obtain ⟨Y, y1, y2⟩ := C70_hoeffding (Real.exp_pos _) ha hK0 (fun x => ⟨le_max_right _ _, max_le (by
    have : 0 < gbmPrice ⟨S, sigma, q, r⟩ T i.dim Z 0 (i.dim - 1) x := mul_pos hS0 (Real.exp_pos _)
    linarith) hK0.le⟩) (show N ∈ Set.Iic INT_MAX from hN2) hN
  have hb := (blackScholes_gbmPrice hZ ⟨S, sigma, q, r⟩ hS0 hσ hT0 hK0 h1 h2).2
  rw [hb] at y2
  simp only [sub_zero] at y2
  exact deviates_double env he h hf hS hs hq hr hK hT h1 h2 hrT (by rwa [abs_of_pos hK0]) hC hE hN hN2 s y1 (y2 ε hε)

/-- **C82.** A call: the price returned in double precision is off the Black-Scholes price by `ε + sessionGap` or more (or is no number at all)
with a probability of at most the variance of the discounted payoff divided by `N ε²`, plus `rareEvent`. -/
theorem C82_call (he : RandomEngine e μ count) {i : Session (Dbl .binary64)} {c : Session.Choices} {o : OptObj (Dbl .binary64)} (h : AcceptedSession i c .gbm o)
    (hf : i.factory = .european) (hty : i.ty = .call) {S sigma r T K : ℝ} {q : Option ℝ} (hS : i.S = .num S) (hs : i.sigma = .num sigma)
    (hq : i.coupon = q.map fun x : ℝ => .num x) (hr : i.r = .num r) (hK : lastSet i.params "K" = some (.dbl (.num K)))
    (hT : lastSet i.params "T" = some (.dbl (.num T))) (h1 : 0 < i.dim) (h2 : i.dim ≤ INT_MAX) (hrT : |r * T| ≤ 1) (hσ : 0 < sigma) (hK0 : 0 < K)
    (hK2 : K ≤ 2 ^ (500 : ℤ)) {B tau : ℝ} (hC : Comfortable S sigma r (q.getD 0) T i.dim B tau) (hE : NormalsClose env.engine e B tau)
    {N : ℕ} (hN : 0 < N) (hN2 : N ≤ INT_MAX) (s : Sys E Q (Dbl .binary64)) {ε : ℝ} (hε : 0 < ε) :
    μ.real {x | ¬ ∃ y : ℝ, (started env c i s N x).1 = .ok (.num y) ∧
      |y - blackScholesCall S sigma r (q.getD 0) T K| < ε + sessionGap S sigma r (q.getD 0) T K i.dim N B tau} ≤
      Var[fun z => Real.exp (-(r * T)) * max (S * Real.exp ((r - q.getD 0 - sigma ^ 2 / 2) * T + sigma * Real.sqrt T * z) - K) 0; gaussianReal 0 1] / (N * ε ^ 2) +
        rareEvent i.dim N B := by
  letI : FlInf ℝ := ⟨0⟩
  obtain ⟨Z, hZ, hp⟩ := exists_draws (randomSource_engine he)
  have hS0 := hC.pos.1
  have hT0 : 0 < T := by
    have h3 : 0 < T / i.dim := lt_of_lt_of_le (by positivity) hC.step.1
    have h4 : (0 : ℝ) < i.dim := by exact_mod_cast h1
    exact (div_pos_iff_of_pos_right h4).mp h3
  have ha := C70_singlePath (randomSource_engine he) h1 h2 (k := .gbm) (T := T) trivial (f := fun x => max (x - K) 0) (by fun_prop)
    (pay := (Payoff.vanilla i.ty K : Payoff ℝ).eval1) (fun x => by rw [hty]; simp [Payoff.eval1]) (hp ⟨S, sigma, q, r⟩ T i.dim h2)
  have hL : MemLp (fun x => max (gbmPrice ⟨S, sigma, q, r⟩ T i.dim Z 0 (i.dim - 1) x - K) 0) 2 μ :=
    ((memLp_gbmPrice hZ ⟨S, sigma, q, r⟩ T i.dim 0 (i.dim - 1)).sub (memLp_const K)).pos_part
  obtain ⟨Y, y1, y2, y3, y4⟩ := C70_estimator ha hL (show N ∈ Set.Iic INT_MAX from hN2) hN
  have hb := (blackScholes_gbmPrice hZ ⟨S, sigma, q, r⟩ hS0 hσ hT0 hK0 h1 h2).1
  rw [hb] at y3
  have hvar : Var[fun x => Real.exp (-(r * T)) * max (gbmPrice ⟨S, sigma, q, r⟩ T i.dim Z 0 (i.dim - 1) x - K) 0; μ] =
      Var[fun z => Real.exp (-(r * T)) * max (blackScholesPrice ⟨S, sigma, q, r⟩ T z - K) 0; gaussianReal 0 1] := by
    have m1 := measurable_gbmPrice hZ ⟨S, sigma, q, r⟩ T i.dim 0 (i.dim - 1)
    have m2 := measurable_blackScholesPrice ⟨S, sigma, q, r⟩ T
    have e := map_gbmPrice_last hZ ⟨S, sigma, q, r⟩ hT0.le h1 0
    have a1 := variance_map (X := fun y => Real.exp (-(r * T)) * max (y - K) 0) (μ := μ) (Y := gbmPrice ⟨S, sigma, q, r⟩ T i.dim Z 0 (i.dim - 1)) (by fun_prop) m1.aemeasurable
    have a2 := variance_map (X := fun y => Real.exp (-(r * T)) * max (y - K) 0) (μ := gaussianReal 0 1) (Y := blackScholesPrice ⟨S, sigma, q, r⟩ T) (by fun_prop) m2.aemeasurable
    rw [e, a2] at a1
    exact a1.symm
  refine deviates_double env he h hf hS hs hq hr hK hT h1 h2 hrT (by rwa [abs_of_pos hK0]) hC hE hN hN2 s y1 ?_
  have hch := meas_ge_le_variance_div_sq y2 hε
  rw [y3, y4, hvar, div_div] at hch
  rw [measureReal_def]
  refine (ENNReal.toReal_mono ENNReal.ofReal_ne_top hch).trans ?_
  rw [ENNReal.toReal_ofReal (div_nonneg (variance_nonneg _ _) (by positivity))]
  exact le_rfl

end

/-! ## Examples -/

namespace DoubleSessionExample
open SessionExample (engine randomEngine choices)

/-- The perfect engine of `SessionExample`, rounded to double precision. -/
noncomputable def env : Env PerfectState Unit (Dbl .binary64) :=
  ⟨⟨fun _ _ => 0, fun _ _ _ => 0, fun _ s => (.num (Rounding.binary64.rnd (s 0 (.normal 0 1))), fun n => s (n + 1)), fun _ s => s⟩,
    (toyEnv (F := Dbl .binary64)).sobol, (toyEnv (F := Dbl .binary64)).faure⟩

theorem close : NormalsClose env.engine engine 8 (2 ^ (-49 : ℤ)) where
  sample x hx := by
    have hx' : |x 0 (.normal 0 1)| ≤ 8 := hx
    obtain ⟨y, e, h⟩ := binary64_doubleAccurate.round (x 0 (.normal 0 1)) (hx'.trans (by norm_num))
    refine ⟨y, Prod.ext (congrArg Dbl.num e) rfl, h.trans ?_⟩
    calc (2 : ℝ) ^ (-53 : ℤ) * |x 0 (.normal 0 1)| + 2 ^ (-1075 : ℤ) ≤ 2 ^ (-53 : ℤ) * 8 + 2 ^ (-1075 : ℤ) := by gcongr
      _ ≤ 2 ^ (-49 : ℤ) := by norm_num
  forget _ := rfl

theorem sqrt_step : Real.sqrt (1 / (2 : ℕ)) ≤ 1 := Real.sqrt_le_one.mpr (by norm_num)

theorem range_le : logRange (1 / 4) (1 / 16) 0 1 2 8 (2 ^ (-49 : ℤ)) ≤ 5 / 2 := by
  have h2 : Real.sqrt (1 / (2 : ℕ)) * Real.sqrt (2 : ℕ) = 1 := by rw [← Real.sqrt_mul (by norm_num)]; norm_num
  have h1 := sqrt_step
  have h0 := Real.sqrt_nonneg (1 / (2 : ℕ))
  unfold logRange
  generalize Real.sqrt (1 / (2 : ℕ)) = a at *
  generalize Real.sqrt (2 : ℕ) = b at *
  rw [show |(1 / 4 : ℝ)| = 1 / 4 by norm_num [abs_of_pos], show |(1 / 16 : ℝ)| = 1 / 16 by norm_num [abs_of_pos], abs_zero]
  norm_num
  nlinarith

theorem comfortable : Comfortable 100 (1 / 4) (1 / 16) 0 1 2 8 (2 ^ (-49 : ℤ)) where
  range := by
    have h1 : |Real.log 100| ≤ 100 := by
      rw [abs_of_nonneg (Real.log_nonneg (by norm_num))]
      exact (Real.log_le_sub_one_of_pos (by norm_num)).trans (by norm_num)
    have := range_le
    linarith
  pos := by norm_num
  draws := by norm_num
  vol := by norm_num [abs_of_pos]
  rate := by norm_num [abs_of_pos]
  coupon := by norm_num
  step := by norm_num
  work := by
    have h1 := sqrt_step
    have h0 := Real.sqrt_nonneg (1 / (2 : ℕ))
    unfold workBound
    norm_num [abs_of_pos] at h0 h1 ⊢
    nlinarith

theorem exp_neg_nat (k : ℕ) : Real.exp (-(k : ℝ)) ≤ (1 / 2.7182818283) ^ k := by
  have : Real.exp (-(k : ℝ)) = (1 / Real.exp 1) ^ k := by
    rw [one_div, inv_pow, Real.exp_neg, ← Real.exp_nat_mul, mul_one]
  rw [this]
  have := Real.exp_one_gt_d9
  gcongr

theorem gap_le : sessionGap 100 (1 / 4) (1 / 16) 0 1 96 2 100000 8 (2 ^ (-49 : ℤ)) ≤ 1 / 1000000 := by
  have hM : 100 * Real.exp (logRange (1 / 4) (1 / 16) 0 1 2 8 (2 ^ (-49 : ℤ))) ≤ 2100 := by
    have h1 : Real.exp (logRange (1 / 4) (1 / 16) 0 1 2 8 (2 ^ (-49 : ℤ))) ≤ Real.exp 1 ^ 3 := by
      rw [← Real.exp_nat_mul]
      exact Real.exp_le_exp.mpr (range_le.trans (by norm_num))
    have h2 : Real.exp 1 ^ 3 ≤ 2.7182818286 ^ 3 := pow_le_pow_left₀ (Real.exp_pos _).le Real.exp_one_lt_d9.le _
    have h3 : (2.7182818286 : ℝ) ^ 3 ≤ 21 := by norm_num
    linarith
  have hM0 : 0 ≤ 100 * Real.exp (logRange (1 / 4) (1 / 16) 0 1 2 8 (2 ^ (-49 : ℤ))) := by positivity
  have h1 := sqrt_step
  have h0 := Real.sqrt_nonneg (1 / (2 : ℕ))
  have hW : workBound (1 / 4) (1 / 16) 0 1 2 8 (2 ^ (-49 : ℤ)) ≤ 10 := by
    unfold workBound
    norm_num [abs_of_pos] at h0 h1 ⊢
    nlinarith
  have hW0 : 0 ≤ workBound (1 / 4) (1 / 16) 0 1 2 8 (2 ^ (-49 : ℤ)) := by
    unfold workBound
    positivity
  have hd : Real.exp (-(1 / 16 * 1)) ≤ 1 := Real.exp_le_one_iff.mpr (by norm_num)
  have hd0 := Real.exp_pos (-(1 / 16 * 1))
  unfold sessionGap
  generalize 100 * Real.exp (logRange (1 / 4) (1 / 16) 0 1 2 8 (2 ^ (-49 : ℤ))) = M at *
  generalize workBound (1 / 4) (1 / 16) 0 1 2 8 (2 ^ (-49 : ℤ)) = W at *
  generalize Real.exp (-(1 / 16 * 1)) = d at *
  generalize Real.sqrt (1 / (2 : ℕ)) = a at *
  calc _ ≤ 1 * (2100 * (2 ^ (-48 : ℤ) * 10 + |(1 / 4 : ℝ)| * 1 * ((2 : ℕ) * 2 ^ (-49 : ℤ))) + (((100000 : ℕ) : ℝ) + 13) * 2 ^ (-52 : ℤ) * (2100 + |(96 : ℝ)|)) + 2 ^ (-1070 : ℤ) := by gcongr
    _ ≤ 1 / 1000000 := by norm_num [abs_of_pos]

/-- The put of the example with 100000 paths: in double precision an error of one unit or more has a probability of less than one in a million. -/
example (s : Sys PerfectState Unit (Dbl .binary64)) : perfectMeasure.real {x | ¬ ∃ y : ℝ,
    (started env (choices .european) (PathErrorExample.session .put) s 100000 x).1 = .ok (.num y) ∧ |y - blackScholesPut 100 (1 / 4) (1 / 16) 0 1 96| < 1} ≤ 1 / 1000000 := by
  have := C82_put env randomEngine (PathErrorExample.accepted (.inr rfl)) rfl rfl (q := none) rfl rfl rfl rfl (K := 96) (T := 1) rfl rfl
    (by norm_num [PathErrorExample.session]) (by norm_num [PathErrorExample.session, INT_MAX]) (by norm_num [abs_of_pos]) (by norm_num) (by norm_num)
    (by norm_num) comfortable close (N := 100000) (by norm_num) (by norm_num [INT_MAX]) s (ε := 9 / 10) (by norm_num)
  refine (measureReal_mono ?_ (measure_ne_top _ _)).trans (this.trans ?_)
  · intro x hx hy
    obtain ⟨y, y1, y2⟩ := hy
    exact hx ⟨y, y1, y2.trans_le (by have := gap_le; show 9 / 10 + sessionGap 100 (1 / 4) (1 / 16) 0 1 96 2 100000 8 (2 ^ (-49 : ℤ)) ≤ 1; linarith)⟩
  · have e1 : Real.exp (-(2 * ((100000 : ℕ) : ℝ) * (9 / 10) ^ 2) / (Real.exp (-(1 / 16 * 1)) * 96) ^ 2) ≤ Real.exp (-((17 : ℕ) : ℝ)) := by
      rw [Real.exp_le_exp, neg_div, neg_le_neg_iff]
      have hd : Real.exp (-(1 / 16 * 1)) ≤ 1 := Real.exp_le_one_iff.mpr (by norm_num)
      have hd0 := Real.exp_pos (-(1 / 16 * 1))
      rw [le_div_iff₀ (by positivity)]
      push_cast
      nlinarith
    have e2 : Real.exp (-((17 : ℕ) : ℝ)) ≤ 1 / 10000000 := (exp_neg_nat 17).trans (by norm_num)
    have e3 : Real.exp (-((32 : ℕ) : ℝ)) ≤ 1 / 10000000000000 := (exp_neg_nat 32).trans (by norm_num)
    unfold rareEvent
    show _ + 4 * ((100000 : ℕ) : ℝ) * ((2 : ℕ) : ℝ) * Real.exp (-(8 ^ 2) / 2) ≤ _
    rw [show (-(8 ^ 2) / 2 : ℝ) = -((32 : ℕ) : ℝ) by norm_num]
    have := e1.trans e2
    push_cast at this e3 ⊢
    linarith

/-- The call of the example: the probability of an error of one unit is at most the variance of the payoff divided by `81000`, plus one in a million. -/
example (s : Sys PerfectState Unit (Dbl .binary64)) : perfectMeasure.real {x | ¬ ∃ y : ℝ,
    (started env (choices .european) (PathErrorExample.session .call) s 100000 x).1 = .ok (.num y) ∧ |y - blackScholesCall 100 (1 / 4) (1 / 16) 0 1 96| <
      9 / 10 + sessionGap 100 (1 / 4) (1 / 16) 0 1 96 2 100000 8 (2 ^ (-49 : ℤ))} ≤
    Var[fun z => Real.exp (-(1 / 16 * 1)) * max (100 * Real.exp ((1 / 16 - 0 - (1 / 4) ^ 2 / 2) * 1 + 1 / 4 * Real.sqrt 1 * z) - 96) 0; gaussianReal 0 1] /
      ((100000 : ℕ) * (9 / 10) ^ 2) + rareEvent 2 100000 8 :=
  C82_call env randomEngine (PathErrorExample.accepted (.inl rfl)) rfl rfl (q := none) rfl rfl rfl rfl (K := 96) (T := 1) rfl rfl
    (by norm_num [PathErrorExample.session]) (by norm_num [PathErrorExample.session, INT_MAX]) (by norm_num [abs_of_pos]) (by norm_num) (by norm_num)
    (by norm_num) comfortable close (N := 100000) (by norm_num) (by norm_num [INT_MAX]) s (ε := 9 / 10) (by norm_num)

end DoubleSessionExample
end Verif
