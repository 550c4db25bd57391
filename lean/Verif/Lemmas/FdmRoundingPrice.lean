import Verif.Lemmas.FdmRoundingRun
import Verif.Lemmas.InterpRounding
import Verif.Props.FdmPrice

/-!
# The price computed by explicit Euler in binary64 against exact arithmetic
-/

set_option exponentiation.threshold 3000

namespace Verif
open Spec

namespace Fdm

/-- The functions of a differential equation, given by their values. -/
def valuesPde (q : Problem) : Pde ℝ where
  diffusion t x := .ok (q.D t x)
  convection t x := .ok (q.C t x)
  reaction t x := .ok (q.R t x)
  rightHandSide t x := .ok (q.f t x)
  boundaryLeft t x := .ok (q.left t x)
  boundaryRight t x := .ok (q.right t x)
  initialCondition x := .ok (q.initial x)

theorem valuesPde_describes (q : Problem) : Describes (valuesPde q) q :=
  ⟨fun _ _ => rfl, fun _ _ => rfl, fun _ _ => rfl, fun _ _ => rfl, fun _ _ => rfl, fun _ _ => rfl, fun _ => rfl⟩

/-- The scheme for the Black-Scholes equation, solved for the new value. -/
theorem eulerStep_of_scheme {q : Problem} {σ r c h k t : ℝ} (hq : BlackScholesCoefficients q σ r c) (hk : k ≠ 0) {J : ℕ} {old new : ℕ → ℝ}
    (hs : ForwardEuler q J h k t old new) {j : ℕ} (h1 : 1 ≤ j) (h2 : j + 1 < J) : new j = eulerStep σ r c h k j old := by
  have e := hs j h1 h2
  rw [div_eq_iff hk, central, hq.D, hq.C, hq.R, hq.f] at e
  rw [eulerStep]
  linarith

/-- The levels are bounded by the data. -/
theorem levels_bounded {σ r c h k M : ℝ} {J n : ℕ} (hh : h ≠ 0) (hk : 0 ≤ k) (hr : 0 ≤ r) (hb : |r - c| ≤ σ ^ 2) (hw : k * (σ ^ 2 * (J : ℝ) ^ 2 + r) ≤ 1)
    {U : ℕ → ℕ → ℝ} (h0 : ∀ j < J, |U 0 j| ≤ M) (hU : ∀ i < n, ∀ j, 1 ≤ j → j + 1 < J → U (i + 1) j = eulerStep σ r c h k j (U i))
    (hl : ∀ i < n, |U (i + 1) 0| ≤ M) (hR : ∀ i < n, |U (i + 1) (J - 1)| ≤ M) : ∀ i ≤ n, ∀ j < J, |U i j| ≤ M := by
  intro i
  induction i with
  | zero => exact fun _ => h0
  | succ i ih =>
    intro hi j hj
    by_cases hj0 : j = 0
    · rw [hj0]; exact hl i hi
    · by_cases hj1 : j = J - 1
      · rw [hj1]; exact hR i hi
      · have := eulerStep_lipschitz (v := U i) (w := fun _ => 0) (j := j) hh hk hr hb hw (by omega) (by omega) (fun i' hi' => by
          rw [sub_zero]; exact ih (by omega) i' hi')
        rw [hU i hi j (by omega) (by omega)]
        have z : eulerStep σ r c h k j (fun _ => 0) = 0 := by simp [eulerStep]
        rwa [z, sub_zero] at this

section
variable {o : OptObj (Dbl .binary64)} {m : Market (Dbl .binary64)} {d : StockData (Dbl .binary64)} {σ r c h k : ℝ} {J : ℕ}
  (hd : BlackScholes.stock o m = .ok d) (hσ' : d.sigma = .num σ) (hr' : m.r = .num r) (hc' : d.coupon.getD (lit 0) = .num c)
  (hk : 0 < k) (hr : 0 ≤ r) (hb : |r - c| ≤ σ ^ 2) (hw : k * (σ ^ 2 * (J : ℝ) ^ 2 + r) ≤ 1)
  (hσ : |σ| ≤ 2 ^ 10) (hr2 : r ≤ 2 ^ 10) (hk2 : k ≤ 2 ^ 10) (hh : 2 ^ (-30 : ℤ) ≤ h) (hh2 : J * h ≤ 2 ^ 20) (hJ2 : J ≤ 2 ^ 20)

include hd hσ' hr' hc' hk hr hb hw hσ hr2 hk2 hh hh2 hJ2 in
/-- The price in doubles against the price of an exact run with the same number of steps. -/
theorem price_double {s : Fdm (Dbl .binary64)} (hs : DoubleGrid J h k s) (ht : s.tPrev = lit 0) (hsol : s.solved = false) {v₀ : ℕ → ℝ}
    (ho : s.oldPrices = vec J fun j => .num (v₀ j)) {q : Problem} {p : Pde ℝ} (hp : Describes p q) (hq : BlackScholesCoefficients q σ r c) {X T M e S : ℝ}
    {n : ℕ} (hn0 : 0 < n)
    (hhX : h = X / (J - 1)) (hkT : k = T / (((n + 1 : ℕ) : ℝ) - 1)) (hM : 2 ^ (-20 : ℤ) ≤ M) (hM2 : M ≤ 2 ^ 49)
    (hn : (n : ℝ) * (2 ^ (-45 : ℤ) * (2 * M) + 2 ^ (-165 : ℤ)) + e ≤ M)
    (h0 : ∀ j < J, |v₀ j - q.initial (j * h)| ≤ e) (h0M : ∀ j < J, |q.initial (j * h)| ≤ M)
    (hl : ∀ i < n, ∃ l : ℝ, (BlackScholes.pde o m).boundaryLeft (times s.dt i) (lit ((0 : ℕ) : ℚ) * s.dx) = .ok (.num l) ∧ |l - q.left (i * k) 0| ≤ e)
    (hlM : ∀ i < n, |q.left (i * k) 0| ≤ M)
    (hR : ∀ i < n, ∃ l : ℝ, (BlackScholes.pde o m).boundaryRight (times s.dt i) (lit ((J - 1 : ℕ) : ℚ) * s.dx) = .ok (.num l) ∧ |l - q.right (i * k) X| ≤ e)
    (hRM : ∀ i < n, |q.right (i * k) X| ≤ M)
    {fuel : ℕ} (hloop : timeLoop .explicit (BlackScholes.pde o m) fuel s = Eff.forN (fun _ => step .explicit (BlackScholes.pde o m)) n () s)
    (h1 : h ≤ S) (h2 : S + h ≤ X) {junk : ℕ → ℝ} {s' : Fdm ℝ} (hc : construct .explicit X J T (n + 1) p junk = .ok s') {fuel' : ℕ} (hf : n + 1 ≤ fuel') :
    ∃ y y' : ℝ, (calculatePrice .explicit .linear (BlackScholes.pde o m) (.ok (.num S)) fuel s).1 = .ok (.num y) ∧
      (calculatePrice .explicit .linear p (.ok S) fuel' s').1 = .ok y' ∧
      |y - y'| ≤ 2 * (n * (2 ^ (-45 : ℤ) * (2 * M) + 2 ^ (-165 : ℤ)) + e) + 2 ^ (-45 : ℤ) * (J * M) := by
  have hh0 : 0 < h := lt_of_lt_of_le (by positivity) hh
  have two : 2 ≤ J := hs.size ▸ hs.two
  have hJ1 : (0 : ℝ) < J - 1 := by
    have : (2 : ℝ) ≤ J := by exact_mod_cast two
    linarith
  have hX : 0 < X := by linarith
  have hT : 0 < T := by
    have hn1 : (0 : ℝ) < ((n + 1 : ℕ) : ℝ) - 1 := by
      push_cast
      have : (0 : ℝ) < n := by exact_mod_cast hn0
      linarith
    rw [hkT] at hk
    by_contra hneg
    exact absurd hk (not_lt.mpr (div_nonpos_of_nonpos_of_nonneg (not_lt.mp hneg) hn1.le))
  obtain ⟨s1, hs1, hu⟩ := C54_partial p q hp X T J (n + 1) junk two (by omega) hX hT
  obtain rfl : s1 = s' := Res.ok.inj (hs1.symm.trans hc)
  obtain ⟨U, u1, u2, u3⟩ := hu fuel' hf
  rw [show n + 1 - 1 = n by omega] at u1 u3
  rw [← hhX] at u2
  have u3' : ∀ i < n, ForwardEuler q J h k (i * k) (U i) (U (i + 1)) ∧ BoundaryAt q J X (i * k) (U (i + 1)) := by
    intro i hi
    have := u3 i hi
    rwa [← hhX, ← hkT] at this
  have hU : ∀ i < n, ∀ j, 1 ≤ j → j + 1 < J → U (i + 1) j = eulerStep σ r c h k j (U i) := fun i hi j a b =>
    eulerStep_of_scheme hq hk.ne' (u3' i hi).1 a b
  have hb' := levels_bounded (U := U) (n := n) (M := M) hh0.ne' hk.le hr hb hw (fun j hj => by rw [u2 j hj]; exact h0M j hj) hU
    (fun i hi => by rw [(u3' i hi).2.1]; exact hlM i hi) (fun i hi => by rw [(u3' i hi).2.2]; exact hRM i hi)
  obtain ⟨t, v, e1, g, e2, e3, e4, e5, e6, e7, e8⟩ := run_double hd hσ' hr' hc' hk.le hr hb hw hσ hr2 hk2 hh hh2 hJ2 hs ht hsol ho (U := U) hb' hM2 hn
    (fun j hj => by rw [u2 j hj]; exact h0 j hj) hU (fun i hi => by rw [(u3' i hi).2.1]; exact hl i hi)
    (fun i hi => by rw [(u3' i hi).2.2]; exact hR i hi)
  have hlast : ((J - 1 : ℕ) : ℝ) * h = X := by
    rw [hhX, Nat.cast_sub (by omega), Nat.cast_one]
    field_simp
  obtain ⟨y, y', i1, i2, i3⟩ := Interp.interpolate_double (S := S) (x := fun j => lit (j : ℚ) * t.dx) (v := v) (U := U n) hh hh2 hJ2
    (fun j hj => node_double hh hh2 hJ2 g.dx hj) (hb' n le_rfl) hM hM2 e8 hn h1 (by rw [hlast]; exact h2)
  refine ⟨y, y', ?_, ?_, i3⟩
  · have hsolve : solve .explicit (BlackScholes.pde o m) fuel s = (.ok t.newPrices, { t with solved := true }) := by
      unfold solve
      rw [Eff.bind_of_ok (hloop.trans e1), Eff.bind_of_ok (Eff.modify_apply _ _), Eff.read_apply]
    rw [calculatePrice_fresh .explicit .linear (BlackScholes.pde o m) (.ok (.num S)) hsol hsolve]
    dsimp only
    rw [g.xs, e7 hn0, g.size]
    exact i1
  · rw [price_returns hp two (by omega) hT hc hf u1, ← hhX]
    exact i2

end

end Fdm
end Verif
