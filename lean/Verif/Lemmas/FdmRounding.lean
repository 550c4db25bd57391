import Verif.Lemmas.DoubleOps
import Verif.Props.FdmDouble
import Verif.Lemmas.FdmBlackScholes

/-!
# Rounding errors of explicit Euler in binary64
-/

set_option exponentiation.threshold 3000

namespace Verif
open Spec

theorem Dbl.sub_coe {R : Rounding} (a b : ℝ) : (Dbl.num (a : EReal) - Dbl.num (b : EReal) : Dbl R) = Dbl.num (R.rnd (a - b)) := by
  have : (-Dbl.num (b : EReal) : Dbl R) = Dbl.num ((-b : ℝ) : EReal) := by
    rw [EReal.coe_neg]; rfl
  change (Dbl.num (a : EReal) + -Dbl.num (b : EReal) : Dbl R) = _
  rw [this, Dbl.add_coe, sub_eq_add_neg]

namespace Fdm

/-- One step of the explicit scheme for the Black-Scholes equation at node `j`, in exact arithmetic. -/
noncomputable def eulerStep (σ r c h k : ℝ) (j : ℕ) (v : ℕ → ℝ) : ℝ :=
  v j + k * (1 / 2 * σ ^ 2 * (j * h) ^ 2 * ((v (j + 1) - 2 * v j + v (j - 1)) / h ^ 2) + (r - c) * (j * h) * ((v (j + 1) - v (j - 1)) / (2 * h)) + -r * v j)

/-- The step as a weighted sum. -/
theorem eulerStep_eq {σ r c h k : ℝ} (hh : h ≠ 0) (j : ℕ) (v : ℕ → ℝ) : eulerStep σ r c h k j v =
    k * j * (σ ^ 2 * j - (r - c)) / 2 * v (j - 1) + (1 - k * (σ ^ 2 * j ^ 2 + r)) * v j + k * j * (σ ^ 2 * j + (r - c)) / 2 * v (j + 1) := by
  unfold eulerStep
  field_simp
  ring

/-- If the weights are not negative the step does not increase differences. -/
theorem eulerStep_lipschitz {σ r c h k E : ℝ} {J j : ℕ} (hh : h ≠ 0) (hk : 0 ≤ k) (hr : 0 ≤ r) (hb : |r - c| ≤ σ ^ 2) (hw : k * (σ ^ 2 * (J : ℝ) ^ 2 + r) ≤ 1)
    (h1 : 1 ≤ j) (h2 : j + 1 < J) {v w : ℕ → ℝ} (hvw : ∀ i < J, |v i - w i| ≤ E) : |eulerStep σ r c h k j v - eulerStep σ r c h k j w| ≤ E := by
  have hj : (1 : ℝ) ≤ j := by exact_mod_cast h1
  have hj2 : (j : ℝ) ≤ J := by exact_mod_cast (by omega : j ≤ J)
  have hE : 0 ≤ E := (abs_nonneg _).trans (hvw 0 (by omega))
  obtain ⟨b1, b2⟩ := abs_le.mp hb
  have hσ : 0 ≤ σ ^ 2 := sq_nonneg σ
  have s1 : σ ^ 2 ≤ σ ^ 2 * j := le_mul_of_one_le_right hσ hj
  have wa : 0 ≤ k * j * (σ ^ 2 * j - (r - c)) / 2 := by
    have : 0 ≤ σ ^ 2 * j - (r - c) := by linarith
    positivity
  have wc : 0 ≤ k * j * (σ ^ 2 * j + (r - c)) / 2 := by
    have : 0 ≤ σ ^ 2 * j + (r - c) := by linarith
    positivity
  have wb : 0 ≤ 1 - k * (σ ^ 2 * j ^ 2 + r) := by
    have : k * (σ ^ 2 * (j : ℝ) ^ 2 + r) ≤ k * (σ ^ 2 * (J : ℝ) ^ 2 + r) := by gcongr
    linarith
  rw [eulerStep_eq hh, eulerStep_eq hh]
  have e0 := hvw (j - 1) (by omega)
  have e1 := hvw j (by omega)
  have e2 := hvw (j + 1) h2
  have sum : k * j * (σ ^ 2 * j - (r - c)) / 2 + (1 - k * (σ ^ 2 * j ^ 2 + r)) + k * j * (σ ^ 2 * j + (r - c)) / 2 ≤ 1 := by
    have : 0 ≤ k * r := mul_nonneg hk hr
    linarith
  generalize k * j * (σ ^ 2 * j - (r - c)) / 2 = A at *
  generalize 1 - k * (σ ^ 2 * j ^ 2 + r) = B at *
  generalize k * j * (σ ^ 2 * j + (r - c)) / 2 = C at *
  have e : A * v (j - 1) + B * v j + C * v (j + 1) - (A * w (j - 1) + B * w j + C * w (j + 1)) =
      A * (v (j - 1) - w (j - 1)) + B * (v j - w j) + C * (v (j + 1) - w (j + 1)) := by ring
  rw [e]
  refine (abs_add_three _ _ _).trans ?_
  rw [abs_mul, abs_mul, abs_mul, abs_of_nonneg wa, abs_of_nonneg wb, abs_of_nonneg wc]
  calc A * |v (j - 1) - w (j - 1)| + B * |v j - w j| + C * |v (j + 1) - w (j + 1)| ≤ A * E + B * E + C * E := by gcongr
    _ = (A + B + C) * E := by ring
    _ ≤ 1 * E := by gcongr
    _ = E := one_mul E

set_option maxHeartbeats 2000000 in
/-- The value computed in doubles for an inner node. -/
theorem eulerStep_double {σ r c h k V : ℝ} {J j : ℕ} {dx dt x : Dbl .binary64} (hdx : Nr 0 1 h dx h) (hdt : Nr 0 1 k dt k)
    (hx : Nr 1 2 (j * h) x (j * h)) (hk : 0 ≤ k) (hr : 0 ≤ r) (hb : |r - c| ≤ σ ^ 2) (hw : k * (σ ^ 2 * (J : ℝ) ^ 2 + r) ≤ 1)
    (hσ : |σ| ≤ 2 ^ 10) (hr2 : r ≤ 2 ^ 10) (hk2 : k ≤ 2 ^ 10) (hh : 2 ^ (-30 : ℤ) ≤ h) (hh2 : h ≤ 2 ^ 20) (hx2 : j * h ≤ 2 ^ 20)
    (h2 : j + 1 < J) {v : ℕ → ℝ} (hV : V ≤ 2 ^ 50) (hv : ∀ i < J, |v i| ≤ V) :
    ∃ z : ℝ, (((dt * (lit (1 / 2) * .num σ * .num σ * x * x) - lit (1 / 2) * dt * dx * ((.num r - .num c) * x)) * .num (v (j - 1)) +
      (dx * dx - lit 2 * (dt * (lit (1 / 2) * .num σ * .num σ * x * x)) + dt * (dx * dx) * -.num r) * .num (v j) +
      (dt * (lit (1 / 2) * .num σ * .num σ * x * x) + lit (1 / 2) * dt * dx * ((.num r - .num c) * x)) * .num (v (j + 1))) / (dx * dx) -
        dt * lit 0 : Dbl .binary64) = .num z ∧
      |z - eulerStep σ r c h k j v| ≤ 2 ^ (-45 : ℤ) * V + 2 ^ (-165 : ℤ) := by
  have hh0 : 0 < h := lt_of_lt_of_le (by positivity) hh
  have hx0 : 0 ≤ j * h := by positivity
  have hj2 : (j : ℝ) ≤ J := by exact_mod_cast (by omega : j ≤ J)
  have hJ1 : (1 : ℝ) ≤ J := by exact_mod_cast (by omega : 1 ≤ J)
  have hrc : |r - c| ≤ 2 ^ 20 := hb.trans (by
    rw [← sq_abs]
    calc |σ| ^ 2 ≤ (2 ^ 10) ^ 2 := by gcongr
      _ = 2 ^ 20 := by norm_num)
  have hhh : h * h ≤ 2 ^ 40 := by
    calc h * h ≤ 2 ^ 20 * 2 ^ 20 := by gcongr
      _ = 2 ^ 40 := by norm_num
  have hV0 : 0 ≤ V := (abs_nonneg _).trans (hv 0 (by omega))
  have hv0 := hv (j - 1) (by omega)
  have hv1 := hv j (by omega)
  have hv2 := hv (j + 1) h2
  -- the diffusion
  have half := Nr.half
  have s1 := half.mul (Nr.exact σ) (by omega) (by norm_num) (by norm_num) (by norm_num) (hσ.trans (by norm_num))
  have b1 : 1 / 2 * |σ| ≤ 2 ^ 10 := by linarith
  have s2 := s1.mul ((Nr.exact σ).weaken (d' := 1) (by omega) le_rfl) (by omega) (by norm_num) (by norm_num) (b1.trans (by norm_num)) (hσ.trans (by norm_num))
  have b2 : 1 / 2 * |σ| * |σ| ≤ 2 ^ 20 := by
    calc 1 / 2 * |σ| * |σ| ≤ 2 ^ 10 * 2 ^ 10 := by gcongr
      _ = 2 ^ 20 := by norm_num
  have s3 := s2.mul (hx.weaken (d' := 2) (by omega) le_rfl) (by omega) (by norm_num) (by norm_num) (b2.trans (by norm_num)) (hx2.trans (by norm_num))
  have b3 : 1 / 2 * |σ| * |σ| * (j * h) ≤ 2 ^ 40 := by
    calc 1 / 2 * |σ| * |σ| * (j * h) ≤ 2 ^ 20 * 2 ^ 20 := by gcongr
      _ = 2 ^ 40 := by norm_num
  have s4 := s3.mul (hx.weaken (d' := 3) (by omega) le_rfl) (by omega) (by norm_num) (by norm_num) (b3.trans (by norm_num)) (hx2.trans (by norm_num))
  have b4 : 1 / 2 * |σ| * |σ| * (j * h) * (j * h) ≤ 2 ^ 60 := by
    calc 1 / 2 * |σ| * |σ| * (j * h) * (j * h) ≤ 2 ^ 40 * 2 ^ 20 := by gcongr
      _ = 2 ^ 60 := by norm_num
  have a := (hdt.weaken (d' := 4) (by omega) le_rfl).mul s4 (by omega) (by norm_num) (by norm_num) (hk2.trans (by norm_num)) b4
  -- the convection
  have c1 := Nr.rnd (x := r - c) (hrc.trans (by norm_num))
  have c2 := (c1.weaken (d' := 1) (by omega) le_rfl).mul hx (by omega) (by norm_num) (by norm_num) (hrc.trans (by norm_num)) (hx2.trans (by norm_num))
  have c3 := half.mul hdt (by omega) (by norm_num) (by norm_num) (by norm_num) (hk2.trans (by norm_num))
  have d1 : 1 / 2 * k ≤ 2 ^ 10 := by linarith
  have c4 := c3.mul (hdx.weaken (d' := 1) (by omega) le_rfl) (by omega) (by norm_num) (by norm_num) (d1.trans (by norm_num)) (hh2.trans (by norm_num))
  have d2 : 1 / 2 * k * h ≤ 2 ^ 30 := by
    calc 1 / 2 * k * h ≤ 2 ^ 10 * 2 ^ 20 := by gcongr
      _ = 2 ^ 30 := by norm_num
  have d3 : |r - c| * (j * h) ≤ 2 ^ 40 := by
    calc |r - c| * (j * h) ≤ 2 ^ 20 * 2 ^ 20 := by gcongr
      _ = 2 ^ 40 := by norm_num
  have b := c4.mul c2 (by omega) (by norm_num) (by norm_num) (d2.trans (by norm_num)) (d3.trans (by norm_num))
  -- sizes of the weights
  have hkσ : k * (σ ^ 2 * (J : ℝ) ^ 2) ≤ 1 := by
    have : 0 ≤ k * r := mul_nonneg hk hr
    linarith
  have hkr : k * r ≤ 1 := by
    have : 0 ≤ k * (σ ^ 2 * (J : ℝ) ^ 2) := by positivity
    linarith
  have szA : k * (1 / 2 * |σ| * |σ| * (j * h) * (j * h)) ≤ k * (σ ^ 2 * (J : ℝ) ^ 2) * (h * h) / 2 := by
    have e : k * (1 / 2 * |σ| * |σ| * (j * h) * (j * h)) = k * (σ ^ 2 * (j : ℝ) ^ 2) * (h * h) / 2 := by rw [← sq_abs σ]; ring
    rw [e]
    gcongr
  have szB : 1 / 2 * k * h * (|r - c| * (j * h)) ≤ k * (σ ^ 2 * (J : ℝ) ^ 2) * (h * h) / 2 := by
    calc 1 / 2 * k * h * (|r - c| * (j * h)) = k * (|r - c| * j) * (h * h) / 2 := by ring
      _ ≤ k * (σ ^ 2 * (J : ℝ) ^ 2) * (h * h) / 2 := by
        gcongr
        nlinarith
  have szR : k * (h * h) * |r| ≤ k * r * (h * h) := by rw [abs_of_nonneg hr]; linarith
  have hQ : k * (σ ^ 2 * (J : ℝ) ^ 2) * (h * h) ≤ h * h := mul_le_of_le_one_left (by positivity) hkσ
  have hQ' : k * r * (h * h) ≤ h * h := mul_le_of_le_one_left (by positivity) hkr
  have eA : k * (1 / 2 * σ * σ * (j * h) * (j * h)) = k * (1 / 2 * σ ^ 2 * (j * h) ^ 2) := by ring
  have eB : 1 / 2 * k * h * ((r - c) * (j * h)) = k * h * ((r - c) * (j * h)) / 2 := by ring
  -- the weights
  have al := a.sub (b.weaken (d' := 5) (k' := 11) (by omega) (by omega)) (by omega) (by norm_num) (by linarith) (by linarith)
  have ga := a.add (b.weaken (d' := 5) (k' := 11) (by omega) (by omega)) (by omega) (by norm_num) (by linarith) (by linarith)
  have two : Nr 0 0 2 (lit 2) 2 := by simpa using Nr.nat (n := 2) (by norm_num)
  have dx2 := hdx.mul hdx (by omega) (by norm_num) (by norm_num) (hh2.trans (by norm_num)) (hh2.trans (by norm_num))
  have g1 := (two.weaken (d' := 5) (by omega) le_rfl).mul a (by omega) (by norm_num) (by norm_num) (by norm_num) (by linarith)
  have g2 := (dx2.weaken (d' := 6) (k' := 12) (by omega) (by omega)).sub g1 (by omega) (by norm_num) (by linarith) (by linarith)
  have g3 := (hdt.weaken (d' := 1) (by omega) le_rfl).mul dx2 (by omega) (by norm_num) (by norm_num) (by linarith) (by linarith)
  have g4 := g3.mul ((Nr.exact r).neg.weaken (d' := 2) (by omega) le_rfl) (by omega) (by norm_num) (by norm_num)
    ((mul_le_mul hk2 hhh (by positivity) (by norm_num)).trans (by norm_num)) (by rw [abs_of_nonneg hr]; linarith)
  have be := g2.add (g4.weaken (d' := 7) (k' := 13) (by omega) (by omega)) (by omega) (by norm_num) (by linarith) (by linarith)
  generalize mA : k * (1 / 2 * |σ| * |σ| * (j * h) * (j * h)) = A at *
  generalize mB : 1 / 2 * k * h * (|r - c| * (j * h)) = B at *
  generalize mR : k * (h * h) * |r| = Rr at *
  have p0 := al.mul ((Nr.exact (v (j - 1))).weaken (d' := 6) (by omega) le_rfl) (by omega) (by norm_num) (by norm_num) (by linarith) (by linarith)
  have p1 := be.mul ((Nr.exact (v j)).weaken (d' := 8) (by omega) le_rfl) (by omega) (by norm_num) (by norm_num) (by linarith) (by linarith)
  have p2 := ga.mul ((Nr.exact (v (j + 1))).weaken (d' := 6) (by omega) le_rfl) (by omega) (by norm_num) (by norm_num) (by linarith) (by linarith)
  have nA : 0 ≤ A := by rw [← mA]; positivity
  have nB : 0 ≤ B := by rw [← mB]; positivity
  have nR : 0 ≤ Rr := by rw [← mR]; positivity
  have z0 : (A + B) * |v (j - 1)| ≤ (A + B) * V := by gcongr
  have z1 : (h * h + 2 * A + Rr) * |v j| ≤ (h * h + 2 * A + Rr) * V := by gcongr
  have z2 : (A + B) * |v (j + 1)| ≤ (A + B) * V := by gcongr
  have big1 : (A + B) * V ≤ 2 ^ 40 * 2 ^ 50 := by
    refine mul_le_mul (by linarith) hV hV0 (by norm_num)
  have big2 : (h * h + 2 * A + Rr) * V ≤ 2 ^ 42 * 2 ^ 50 := by
    refine mul_le_mul (by linarith) hV hV0 (by norm_num)
  have q1 := (p0.weaken (d' := 9) (k' := 15) (by omega) (by omega)).add p1 (by omega) (by norm_num) (by linarith) (by linarith)
  have q2 := q1.add (p2.weaken (d' := 10) (k' := 16) (by omega) (by omega)) (by omega) (by norm_num) (by linarith) (by linarith)
  have hhlow : 2 ^ (-60 : ℤ) ≤ h * h := by
    calc (2 : ℝ) ^ (-60 : ℤ) = 2 ^ (-30 : ℤ) * 2 ^ (-30 : ℤ) := by norm_num
      _ ≤ h * h := by gcongr
  have q3 := q2.div (dx2.weaken (d' := 1) (k' := 3) (by omega) (by omega)) (by omega) (by omega) (by norm_num) (by norm_num) (by linarith) hhlow
  have f0 := hdt.mul (Nr.exact 0) (by omega) (by norm_num) (by norm_num) (by linarith) (by norm_num)
  have szq : ((A + B) * |v (j - 1)| + (h * h + 2 * A + Rr) * |v j| + (A + B) * |v (j + 1)|) / (h * h) ≤ 4 * V := by
    rw [div_le_iff₀ (by positivity)]
    have e1 : 2 * (A + B) + (h * h + 2 * A + Rr) ≤ 4 * (h * h) := by
      have : k * (σ ^ 2 * (J : ℝ) ^ 2) * (h * h) + k * r * (h * h) ≤ h * h := by
        calc k * (σ ^ 2 * (J : ℝ) ^ 2) * (h * h) + k * r * (h * h) = k * (σ ^ 2 * (J : ℝ) ^ 2 + r) * (h * h) := by ring
          _ ≤ 1 * (h * h) := by gcongr
          _ = h * h := one_mul _
      linarith
    have e2 : (2 * (A + B) + (h * h + 2 * A + Rr)) * V ≤ 4 * (h * h) * V := by gcongr
    linarith
  have q4 := q3.sub (f0.weaken (d' := 12) (k' := 26) (by omega) (by omega)) (by omega) (by norm_num) (by linarith) (by rw [abs_zero, mul_zero]; norm_num)
  have zero : (lit 0 : Dbl .binary64) = .num ((0 : ℝ) : EReal) := Dbl.lit_zero
  obtain ⟨z, ez, hz⟩ := q4.error (by omega) (by norm_num)
  refine ⟨z, ?_, ?_⟩
  · rw [zero, ← ez]
    rw [Dbl.sub_coe]
  · have eq : ((k * (1 / 2 * σ * σ * (j * h) * (j * h)) - 1 / 2 * k * h * ((r - c) * (j * h))) * v (j - 1) +
        (h * h - 2 * (k * (1 / 2 * σ * σ * (j * h) * (j * h))) + k * (h * h) * -r) * v j +
        (k * (1 / 2 * σ * σ * (j * h) * (j * h)) + 1 / 2 * k * h * ((r - c) * (j * h))) * v (j + 1)) / (h * h) - k * 0 = eulerStep σ r c h k j v := by
      unfold eulerStep
      field_simp
      ring
    rw [eq] at hz
    refine hz.trans (add_le_add ?_ le_rfl)
    rw [abs_zero, mul_zero, add_zero]
    have := mul_le_mul_of_nonneg_left szq (by positivity : (0 : ℝ) ≤ 2 * (27 : ℕ) * 2 ^ (-53 : ℤ))
    refine this.trans ?_
    calc 2 * ((27 : ℕ) : ℝ) * 2 ^ (-53 : ℤ) * (4 * V) = (2 * ((27 : ℕ) : ℝ) * 2 ^ (-53 : ℤ) * 4) * V := by ring
      _ ≤ 2 ^ (-45 : ℤ) * V := by gcongr; norm_num

end Fdm
end Verif
