import Verif.Lemmas.FdmRounding
import Verif.Props.Interpolation

/-!
# Rounding errors of linear interpolation in binary64
-/

set_option exponentiation.threshold 3000

namespace Verif
open Spec

namespace Interp
open Fdm

/-- The interval found in doubles. -/
theorem linearScan_num {J : ℕ} {X v : ℕ → ℝ} {S : ℝ} : ∀ todo i : ℕ, todo + i = J → 1 ≤ i → X (i - 1) ≤ S → S < X (J - 1) →
    ∃ k, k + 1 < J ∧ X k ≤ S ∧ S < X (k + 1) ∧
      linearScan (vec J fun j => (.num (X j) : Dbl .binary64)) (vec J fun j => .num (v j)) (.num S) todo i =
        .ok (line (.num (X k)) (.num (v k)) (.num (X (k + 1))) (.num (v (k + 1))) (.num S))
  | 0, i, h1, h2, h3, h4 => by
    rw [show J - 1 = i - 1 by omega] at h4
    linarith
  | todo + 1, i, h1, h2, h3, h4 => by
    simp only [linearScan, vget_vec _ (by omega : i < J), vget_vec _ (by omega : i - 1 < J), Res.bind_ok]
    by_cases hx : S < X i
    · rw [if_pos (by rw [Dbl.lt_num]; exact_mod_cast hx)]
      refine ⟨i - 1, by omega, h3, ?_, ?_⟩
      · rwa [show i - 1 + 1 = i by omega]
      · rw [show i - 1 + 1 = i by omega]
        rfl
    · rw [if_neg (by rw [Dbl.lt_num]; exact_mod_cast hx)]
      exact linearScan_num todo (i + 1) (by omega) (by omega) (by simpa using not_lt.mp hx) h4

/-- The line through two points, in doubles. -/
theorem line_double {x1 x2 v1 v2 S V : ℝ} (h12 : 2 ^ (-60 : ℤ) ≤ x2 - x1) (hs1 : x1 ≤ S) (hs2 : S ≤ x2) (hx : x2 - x1 ≤ 2 ^ 60) (hv1 : |v1| ≤ V) (hv2 : |v2| ≤ V) (hV : V ≤ 2 ^ 50) :
    ∃ z : ℝ, line (.num x1 : Dbl .binary64) (.num v1) (.num x2) (.num v2) (.num S) = .num z ∧
      |z - line x1 v1 x2 v2 S| ≤ 2 ^ (-47 : ℤ) * V + 2 ^ (-165 : ℤ) := by
  have hd : 0 < x2 - x1 := lt_of_lt_of_le (by positivity) h12
  have hV0 : 0 ≤ V := (abs_nonneg _).trans hv1
  have e1 : |S - x1| ≤ x2 - x1 := by rw [abs_of_nonneg (by linarith)]; linarith
  have e2 : |v2 - v1| ≤ 2 * V := (abs_sub _ _).trans (by linarith)
  have a := Nr.rnd (x := S - x1) (e1.trans (hx.trans (by norm_num)))
  have b := Nr.rnd (x := v2 - v1) (e2.trans ((by linarith : 2 * V ≤ 2 * 2 ^ 50).trans (by norm_num)))
  have c := Nr.rnd (x := x2 - x1) (by rw [abs_of_pos hd]; exact hx.trans (by norm_num))
  rw [abs_of_pos hd] at c
  have p := a.mul b (by omega) (by norm_num) (by norm_num) (e1.trans hx) (e2.trans (by linarith))
  have hm : |S - x1| * |v2 - v1| ≤ 2 ^ 60 * (2 * V) := mul_le_mul (e1.trans hx) e2 (abs_nonneg _) (by norm_num)
  have q := p.div c (by omega) (by omega) (by norm_num) (by norm_num) (by linarith) h12
  have sz : |S - x1| * |v2 - v1| / (x2 - x1) ≤ 2 * V := by
    rw [div_le_iff₀ hd]
    calc |S - x1| * |v2 - v1| ≤ (x2 - x1) * (2 * V) := by gcongr
      _ = 2 * V * (x2 - x1) := by ring
  have r := ((Nr.exact v1).weaken (d' := 2) (k' := 8) (by omega) (by omega)).add q (by omega) (by norm_num) (by linarith) (by linarith)
  obtain ⟨z, ez, hz⟩ := r.error (by omega) (by norm_num)
  refine ⟨z, ?_, ?_⟩
  · rw [← ez, line, Dbl.sub_coe, Dbl.sub_coe, Dbl.sub_coe]
  · rw [line]
    refine hz.trans (add_le_add ?_ le_rfl)
    have : |v1| + |S - x1| * |v2 - v1| / (x2 - x1) ≤ 3 * V := by linarith
    have := mul_le_mul_of_nonneg_left this (by positivity : (0 : ℝ) ≤ 2 * ((8 + 1 : ℕ) : ℝ) * 2 ^ (-53 : ℤ))
    refine this.trans ?_
    calc 2 * ((8 + 1 : ℕ) : ℝ) * 2 ^ (-53 : ℤ) * (3 * V) = (2 * ((8 + 1 : ℕ) : ℝ) * 2 ^ (-53 : ℤ) * 3) * V := by ring
      _ ≤ 2 ^ (-47 : ℤ) * V := by gcongr; norm_num

/-- Moving the nodes a little. -/
theorem line_nodes {x1 x2 a h v1 v2 S V δ : ℝ} (hh : 0 < h) (h1 : |x1 - a| ≤ δ) (h2 : |x2 - (a + h)| ≤ δ) (h12 : x1 < x2) (hs1 : x1 ≤ S) (hs2 : S ≤ x2)
    (hv1 : |v1| ≤ V) (hv2 : |v2| ≤ V) : |line x1 v1 x2 v2 S - (v1 + (S - a) / h * (v2 - v1))| ≤ 2 * V * (δ / h) := by
  have hd : 0 < x2 - x1 := by linarith
  have e2 : |v2 - v1| ≤ 2 * V := (abs_sub _ _).trans (by linarith)
  obtain ⟨t, ht⟩ : ∃ t, t = (S - x1) / (x2 - x1) := ⟨_, rfl⟩
  have t0 : 0 ≤ t := by rw [ht]; exact div_nonneg (by linarith) hd.le
  have t1 : t ≤ 1 := by rw [ht, div_le_one hd]; linarith
  have eS : S = x1 + t * (x2 - x1) := by rw [ht]; field_simp; ring
  have el : line x1 v1 x2 v2 S = v1 + t * (v2 - v1) := by rw [eS, line_eq h12]
  rw [el]
  have e : v1 + t * (v2 - v1) - (v1 + (S - a) / h * (v2 - v1)) = -(((1 - t) * (x1 - a) + t * (x2 - (a + h))) / h) * (v2 - v1) := by
    rw [eS]
    field_simp
    ring
  rw [e, abs_mul, abs_neg, abs_div, abs_of_pos hh]
  have c : |(1 - t) * (x1 - a) + t * (x2 - (a + h))| ≤ δ := by
    refine (abs_add_le _ _).trans ?_
    rw [abs_mul, abs_mul, abs_of_nonneg t0, abs_of_nonneg (by linarith : 0 ≤ 1 - t)]
    calc (1 - t) * |x1 - a| + t * |x2 - (a + h)| ≤ (1 - t) * δ + t * δ := add_le_add (mul_le_mul_of_nonneg_left h1 (by linarith)) (mul_le_mul_of_nonneg_left h2 t0)
      _ = δ := by ring
  calc |(1 - t) * (x1 - a) + t * (x2 - (a + h))| / h * |v2 - v1| ≤ δ / h * (2 * V) := by
        refine mul_le_mul (div_le_div_of_nonneg_right c hh.le) e2 (abs_nonneg _) (div_nonneg ((abs_nonneg _).trans c) hh.le)
    _ = 2 * V * (δ / h) := by ring

/-- The piecewise linear function is close to each of its lines just outside the interval of that line. -/
theorem near_line {J k : ℕ} {h S M δ : ℝ} {U : ℕ → ℝ} (hh : 0 < h) (hk : k + 1 < J) (hU : ∀ j < J, |U j| ≤ M) (hδ0 : 0 ≤ δ) (hδ : δ ≤ h) (h1 : k * h - δ ≤ S)
    (h2 : S ≤ (k + 1) * h + δ) (h0 : 0 ≤ S) (h3 : S ≤ ((J - 1 : ℕ) : ℝ) * h) :
    ∃ y, linear (vec J fun j => (j : ℝ) * h) (vec J U) S = .ok y ∧ |U k + (S - k * h) / h * (U (k + 1) - U k) - y| ≤ 4 * M * (δ / h) := by
  have hn : Nodes (vec J fun j => (j : ℝ) * h) (vec J U) := by
    refine ⟨fun e => ?_, fun i j a c hij ha hc => ?_, by simp⟩
    · have := congrArg List.length e
      simp at this
      omega
    · have hj : j < J := by
        by_contra hj
        rw [List.getElem?_eq_none (by simp; omega)] at hc
        cases hc
      rw [vec_getElem? _ (by omega : i < J)] at ha
      rw [vec_getElem? _ hj] at hc
      rw [← Option.some.inj ha, ← Option.some.inj hc]
      have : (i : ℝ) < j := by exact_mod_cast hij
      exact mul_lt_mul_of_pos_right this hh
  have nd : ∀ j < J, NodeAt (vec J fun j => (j : ℝ) * h) (vec J U) j (j * h) (U j) := fun j hj => ⟨vec_getElem? _ hj, vec_getElem? _ hj⟩
  have hM : 0 ≤ M := (abs_nonneg _).trans (hU 0 (by omega))
  have on : ∀ i, i + 1 < J → (i : ℝ) * h ≤ S → S ≤ (i + 1) * h →
      linear (vec J fun j => (j : ℝ) * h) (vec J U) S = .ok (U i + (S - i * h) / h * (U (i + 1) - U i)) := by
    intro i hi a b
    have := linear_on hn (nd i (by omega)) (nd (i + 1) hi) a (by push_cast; exact b)
    rw [this, line]
    congr 1
    push_cast
    field_simp
    ring
  have jump : ∀ i, i + 2 < J → |U (i + 1) - U i - (U (i + 2) - U (i + 1))| ≤ 4 * M := by
    intro i hi
    have a := hU i (by omega)
    have b := hU (i + 1) (by omega)
    have c := hU (i + 2) hi
    rw [abs_le] at a b c ⊢
    constructor <;> linarith
  by_cases c1 : S < k * h
  · have hδ0 : 0 < δ := by linarith
    have hk0 : k ≠ 0 := by
      rintro rfl
      simp at c1
      linarith
    obtain ⟨i, rfl⟩ : ∃ i, k = i + 1 := ⟨k - 1, by omega⟩
    push_cast at c1 h1 h2 ⊢
    refine ⟨_, on i (by omega) (by linarith) c1.le, ?_⟩
    have e : U (i + 1) + (S - (i + 1) * h) / h * (U (i + 1 + 1) - U (i + 1)) - (U i + (S - i * h) / h * (U (i + 1) - U i)) =
        ((i + 1) * h - S) / h * (U (i + 1) - U i - (U (i + 2) - U (i + 1))) := by
      field_simp
      ring
    rw [e, abs_mul, abs_of_nonneg (div_nonneg (by linarith) hh.le), mul_comm]
    refine mul_le_mul (jump i (by omega)) (div_le_div_of_nonneg_right (by linarith) hh.le) (div_nonneg (by linarith) hh.le) (by positivity)
  · by_cases c2 : S ≤ (k + 1) * h
    · refine ⟨_, on k hk (not_lt.mp c1) c2, ?_⟩
      rw [sub_self, abs_zero]
      positivity
    · have hδ0 : 0 < δ := by linarith
      have hk2 : k + 2 < J := by
        by_contra hc
        rw [show J - 1 = k + 1 by omega] at h3
        push_cast at h3
        linarith
      refine ⟨_, on (k + 1) (by omega) (by push_cast; linarith) (by push_cast; linarith), ?_⟩
      push_cast
      have e : U k + (S - k * h) / h * (U (k + 1) - U k) - (U (k + 1) + (S - (k + 1) * h) / h * (U (k + 1 + 1) - U (k + 1))) =
          (S - (k + 1) * h) / h * (U (k + 1) - U k - (U (k + 2) - U (k + 1))) := by
        field_simp
        ring
      rw [e, abs_mul, abs_of_nonneg (div_nonneg (by linarith) hh.le), mul_comm]
      refine mul_le_mul (jump k hk2) (div_le_div_of_nonneg_right (by linarith) hh.le) (div_nonneg (by linarith) hh.le) (by positivity)

/-- Linear interpolation on the grid computed in doubles, of values computed in doubles, against exact arithmetic. -/
theorem interpolate_double {J : ℕ} {h S M E : ℝ} {x : ℕ → Dbl .binary64} {v U : ℕ → ℝ} (hh : 2 ^ (-30 : ℤ) ≤ h) (hh2 : J * h ≤ 2 ^ 20) (hJ : J ≤ 2 ^ 20)
    (hx : ∀ j < J, Nr 1 2 (j * h) (x j) (j * h)) (hU : ∀ j < J, |U j| ≤ M) (hM : 2 ^ (-20 : ℤ) ≤ M) (hM2 : M ≤ 2 ^ 49) (hv : ∀ j < J, |v j - U j| ≤ E) (hE : E ≤ M)
    (h1 : h ≤ S) (h2 : S + h ≤ ((J - 1 : ℕ) : ℝ) * h) :
    ∃ y y' : ℝ, interpolate .linear (vec J x) (vec J fun j => .num (v j)) (.num S) = .ok (.num y) ∧
      interpolate .linear (vec J fun j => (j : ℝ) * h) (vec J U) S = .ok y' ∧ |y - y'| ≤ 2 * E + 2 ^ (-45 : ℤ) * (J * M) := by
  have hh0 : 0 < h := lt_of_lt_of_le (by positivity) hh
  have hJ2 : 2 ≤ J := by
    by_contra hc
    rw [show J - 1 = 0 by omega] at h2
    simp at h2
    linarith
  have hJr : (2 : ℝ) ≤ J := by exact_mod_cast hJ2
  have hJr2 : (J : ℝ) ≤ 2 ^ 20 := by exact_mod_cast hJ
  have hJ1 : ((J - 1 : ℕ) : ℝ) = J - 1 := by rw [Nat.cast_sub (by omega)]; norm_num
  -- the nodes as reals
  have hX : ∀ j, ∃ z : ℝ, j < J → x j = .num z ∧ |z - j * h| ≤ 2 ^ (-51 : ℤ) * (J * h) + 2 ^ (-165 : ℤ) := by
    intro j
    by_cases hj : j < J
    · obtain ⟨z, e, hz⟩ := (hx j hj).error (by omega) (by norm_num)
      refine ⟨z, fun _ => ⟨e, hz.trans (add_le_add ?_ le_rfl)⟩⟩
      have : (j : ℝ) ≤ J := by exact_mod_cast hj.le
      calc 2 * ((2 : ℕ) : ℝ) * 2 ^ (-53 : ℤ) * (j * h) ≤ 2 * ((2 : ℕ) : ℝ) * 2 ^ (-53 : ℤ) * (J * h) := by gcongr
        _ = 2 ^ (-51 : ℤ) * (J * h) := by norm_num
    · exact ⟨0, fun h => absurd h hj⟩
  choose X hX using hX
  obtain ⟨δ, hδ⟩ : ∃ δ : ℝ, δ = 2 ^ (-51 : ℤ) * (J * h) + 2 ^ (-165 : ℤ) := ⟨_, rfl⟩
  rw [← hδ] at hX
  have hδ0 : 0 < δ := by rw [hδ]; positivity
  have hq : δ / h ≤ 2 ^ (-51 : ℤ) * J + 2 ^ (-135 : ℤ) := by
    rw [div_le_iff₀ hh0, hδ]
    have : (2 : ℝ) ^ (-165 : ℤ) = 2 ^ (-135 : ℤ) * 2 ^ (-30 : ℤ) := by rw [← zpow_add₀ (by norm_num)]; norm_num
    rw [this]
    have := mul_le_mul_of_nonneg_left hh (by positivity : (0 : ℝ) ≤ 2 ^ (-135 : ℤ))
    linarith
  have hq4 : δ / h ≤ 1 / 4 := by
    refine hq.trans ?_
    calc (2 : ℝ) ^ (-51 : ℤ) * J + 2 ^ (-135 : ℤ) ≤ 2 ^ (-51 : ℤ) * 2 ^ 20 + 2 ^ (-135 : ℤ) := by gcongr
      _ ≤ 1 / 4 := by norm_num
  have hδh : δ ≤ h / 4 := by
    rw [div_le_iff₀ hh0] at hq4
    linarith
  have exs : vec J x = vec J fun j => .num (X j) := vec_congr fun j hj => (hX j hj).1
  obtain ⟨a0, a0'⟩ := abs_le.mp (hX 0 (by omega)).2
  obtain ⟨aJ, aJ'⟩ := abs_le.mp (hX (J - 1) (by omega)).2
  simp only [Nat.cast_zero, zero_mul, sub_zero] at a0 a0'
  -- the interval
  obtain ⟨k, hk, s1, s2, es⟩ := linearScan_num (J := J) (X := X) (v := v) (S := S) (J - 1) 1 (by omega) le_rfl (by simp only [Nat.sub_self]; linarith)
    (by linarith)
  have hk1 : (k : ℝ) + 1 ≤ J := by exact_mod_cast hk.le
  have b1 := (hX k (by omega)).2
  have b2 := (hX (k + 1) hk).2
  push_cast at b2
  rw [show ((k : ℝ) + 1) * h = k * h + h by ring] at b2
  obtain ⟨c1, c1'⟩ := abs_le.mp b1
  obtain ⟨c2, c2'⟩ := abs_le.mp b2
  have lin : interpolate .linear (vec J x) (vec J fun j => (.num (v j) : Dbl .binary64)) (.num S) =
      .ok (line (.num (X k)) (.num (v k)) (.num (X (k + 1))) (.num (v (k + 1))) (.num S)) := by
    rw [exs]
    change linear _ _ _ = _
    rw [linear, vfront_vec _ (by omega), Res.bind_ok, if_neg, vback_vec _ (by omega), Res.bind_ok, if_neg, vec_length]
    · exact es
    · rw [Dbl.ge_num, not_le]
      have : S < X (J - 1) := by linarith
      exact_mod_cast this
    · rw [Dbl.le_num, not_le]
      have : X 0 < S := by linarith
      exact_mod_cast this
  have hv' : ∀ j < J, |v j| ≤ 2 * M := by
    intro j hj
    have a := hv j hj
    have b := hU j hj
    have := abs_add_le (v j - U j) (U j)
    rw [sub_add_cancel] at this
    linarith
  have hM0 : 0 < M := lt_of_lt_of_le (by positivity) hM
  have hE0 : 0 ≤ E := (abs_nonneg _).trans (hv 0 (by omega))
  have hgap : 2 ^ (-60 : ℤ) ≤ X (k + 1) - X k := by
    have : (2 : ℝ) ^ (-60 : ℤ) ≤ 2 ^ (-30 : ℤ) / 2 := by norm_num
    refine (this.trans (div_le_div_of_nonneg_right hh (by norm_num))).trans ?_
    linarith only [c2, c1', hδh]
  have hgap2 : X (k + 1) - X k ≤ 2 ^ 60 := by
    have : h ≤ J * h := le_mul_of_one_le_left hh0.le (by linarith)
    linarith
  obtain ⟨y, ey, hy⟩ := line_double hgap s1 s2.le hgap2 (hv' k (by omega)) (hv' (k + 1) hk) (by linarith)
  have L1 := line_nodes hh0 b1 b2 (by linarith) s1 s2.le (hv' k (by omega)) (hv' (k + 1) hk)
  obtain ⟨y', ey', hy'⟩ := near_line (S := S) (δ := δ) hh0 hk hU hδ0.le (by linarith) (by linarith) (by linarith) (by linarith) (by linarith)
  refine ⟨y, y', lin.trans (by rw [ey]), ey', ?_⟩
  -- the line of `v` against the line of `U`
  have L2 : |v k + (S - k * h) / h * (v (k + 1) - v k) - (U k + (S - k * h) / h * (U (k + 1) - U k))| ≤ (1 + 2 * (δ / h)) * E := by
    obtain ⟨t, ht⟩ : ∃ t, t = (S - k * h) / h := ⟨_, rfl⟩
    have t0 : -(δ / h) ≤ t := by
      rw [ht, ← neg_div]
      exact div_le_div_of_nonneg_right (by linarith) hh0.le
    have t1 : t ≤ 1 + δ / h := by
      rw [ht, ← sub_le_iff_le_add', ← div_self hh0.ne', ← sub_div]
      exact div_le_div_of_nonneg_right (by linarith) hh0.le
    rw [← ht]
    have e : v k + t * (v (k + 1) - v k) - (U k + t * (U (k + 1) - U k)) = (1 - t) * (v k - U k) + t * (v (k + 1) - U (k + 1)) := by ring
    rw [e]
    refine (abs_add_le _ _).trans ?_
    rw [abs_mul, abs_mul]
    have p1 : |1 - t| * |v k - U k| ≤ |1 - t| * E := mul_le_mul_of_nonneg_left (hv k (by omega)) (abs_nonneg _)
    have p2 : |t| * |v (k + 1) - U (k + 1)| ≤ |t| * E := mul_le_mul_of_nonneg_left (hv (k + 1) hk) (abs_nonneg _)
    have hq0 : 0 ≤ δ / h := by positivity
    have p3 : |1 - t| + |t| ≤ 1 + 2 * (δ / h) := by
      rcases abs_cases (1 - t) with ⟨e1, _⟩ | ⟨e1, _⟩ <;> rcases abs_cases t with ⟨e2, _⟩ | ⟨e2, _⟩ <;> linarith
    have p4 := mul_le_mul_of_nonneg_right p3 hE0
    linarith
  have L3 : (1 + 2 * (δ / h)) * E ≤ 2 * E := by
    refine mul_le_mul_of_nonneg_right ?_ hE0
    linarith
  have tri : |y - y'| ≤ (2 ^ (-47 : ℤ) * (2 * M) + 2 ^ (-165 : ℤ)) + 2 * (2 * M) * (δ / h) + 2 * E + 4 * M * (δ / h) := by
    have t1 := abs_sub_le y (line (X k) (v k) (X (k + 1)) (v (k + 1)) S) y'
    have t2 := abs_sub_le (line (X k) (v k) (X (k + 1)) (v (k + 1)) S) (v k + (S - k * h) / h * (v (k + 1) - v k)) y'
    have t3 := abs_sub_le (v k + (S - k * h) / h * (v (k + 1) - v k)) (U k + (S - k * h) / h * (U (k + 1) - U k)) y'
    generalize (2 : ℝ) ^ (-47 : ℤ) * (2 * M) + 2 ^ (-165 : ℤ) = q at hy ⊢
    linarith only [t1, t2, t3, hy, L1, L2, L3, hy']
  refine tri.trans ?_
  have n1 : 8 * M * (δ / h) ≤ 8 * M * (2 ^ (-51 : ℤ) * J + 2 ^ (-135 : ℤ)) := by gcongr
  have n2 : (2 : ℝ) ^ (-165 : ℤ) ≤ 2 ^ (-60 : ℤ) * M := by
    calc (2 : ℝ) ^ (-165 : ℤ) ≤ 2 ^ (-60 : ℤ) * 2 ^ (-20 : ℤ) := by norm_num
      _ ≤ 2 ^ (-60 : ℤ) * M := by gcongr
  have n3 : 2 * M ≤ J * M := by gcongr
  have n4 : (2 ^ (-47 : ℤ) * 2 + 2 ^ (-60 : ℤ) + 8 * 2 ^ (-135 : ℤ)) * M ≤ 2 ^ (-46 : ℤ) * (J * M) := by
    calc (2 ^ (-47 : ℤ) * 2 + 2 ^ (-60 : ℤ) + 8 * 2 ^ (-135 : ℤ)) * M ≤ (2 ^ (-46 : ℤ) * 2) * M := by gcongr; norm_num
      _ = 2 ^ (-46 : ℤ) * (2 * M) := by ring
      _ ≤ 2 ^ (-46 : ℤ) * (J * M) := by gcongr
  have n5 : (8 : ℝ) * 2 ^ (-51 : ℤ) * (J * M) + 2 ^ (-46 : ℤ) * (J * M) ≤ 2 ^ (-45 : ℤ) * (J * M) := by
    rw [← add_mul]
    gcongr
    norm_num
  generalize (2 : ℝ) ^ (-47 : ℤ) = a1 at n1 n2 n4 n5 ⊢
  generalize (2 : ℝ) ^ (-60 : ℤ) = a2 at n1 n2 n4 n5 ⊢
  generalize (2 : ℝ) ^ (-135 : ℤ) = a3 at n1 n2 n4 n5 ⊢
  generalize (2 : ℝ) ^ (-46 : ℤ) = a4 at n1 n2 n4 n5 ⊢
  generalize (2 : ℝ) ^ (-51 : ℤ) = a5 at n1 n2 n4 n5 ⊢
  generalize (2 : ℝ) ^ (-45 : ℤ) = a6 at n1 n2 n4 n5 ⊢
  generalize (2 : ℝ) ^ (-165 : ℤ) = a7 at n1 n2 n4 n5 ⊢
  linarith only [n1, n2, n4, n5]

end Interp
end Verif
