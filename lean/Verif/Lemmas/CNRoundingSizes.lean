import Verif.Lemmas.CNRoundingRun
import Verif.Lemmas.ImplicitRoundingSizes
import Verif.Spec.CNDoubleSpec

/-!
# Crank-Nicolson prices of calls and puts in double precision
-/

set_option exponentiation.threshold 3000

namespace Verif
open Spec

namespace Fdm

/-- The size of `b`. -/
theorem construct_b {F : Type} [Fl F] [Add F] [Sub F] [Mul F] [Div F] [Neg F] {sc : Scheme F} {xDom tDom : F} {J N : ℕ} {p : Pde F} {junk : ℕ → F} {s : Fdm F}
    (h : construct sc xDom J tDom N p junk = .ok s) : s.b.length = J - 2 := by
  unfold construct at h
  obtain ⟨s1, h1, h2⟩ := Res.bind_eq_ok.mp h
  have e : s1.b.length = J - 2 := by
    unfold constructBase at h1
    obtain ⟨old, -, h3⟩ := Res.bind_eq_ok.mp h1
    obtain rfl := Res.ok.inj h3
    simp
  cases sc with
  | explicit => obtain rfl := Res.ok.inj h2; exact e
  | implicit _ =>
    dsimp only at h2
    split at h2
    · cases h2
    · obtain rfl := Res.ok.inj h2; exact e
  | crankNicolson _ =>
    dsimp only at h2
    split at h2
    · cases h2
    · obtain rfl := Res.ok.inj h2; exact e

section
variable {o : OptObj (Dbl .binary64)} {m : Market (Dbl .binary64)} {d : StockData (Dbl .binary64)} {σ r c K S T X : ℝ} {J N : ℕ}

/-- The rounding errors of the whole run, added up. -/
theorem cn_total (G : ModerateCN σ r c K S T X J N) {n : ℕ} (hn : n ≤ N) {e : ℝ} (he : e ≤ N * (X + K) / 2 ^ 36) :
    (n : ℝ) * (4 * (X + K) / 2 ^ 37) + e ≤ 4 * (X + K) ∧
    2 * ((n : ℝ) * (4 * (X + K) / 2 ^ 37) + e) + 2 ^ (-45 : ℤ) * (J * (4 * (X + K))) ≤ cnRounding K X J N := by
  obtain ⟨m1, m2, m3⟩ := grid_M G.toGridSizes
  have m0 : 0 < X + K := lt_of_lt_of_le (by positivity) m1
  have hN2 : (N : ℝ) ≤ 2 ^ 20 := by exact_mod_cast G.levels.2
  have hnN : (n : ℝ) ≤ N := by exact_mod_cast hn
  rw [cnRounding, show (2 : ℝ) ^ (-45 : ℤ) * (J * (4 * (X + K))) = 1 / 2 ^ 45 * (J * (4 * (X + K))) by norm_num]
  clear m3 m1
  have s4 := mul_le_mul_of_nonneg_right hnN m0.le
  have s5 : (N : ℝ) * (X + K) ≤ 2 ^ 20 * (X + K) := mul_le_mul_of_nonneg_right hN2 m0.le
  have s6 : 0 ≤ (N : ℝ) * (X + K) := by positivity
  have s7 : 0 ≤ (J : ℝ) * (X + K) := by positivity
  constructor <;> linarith

variable (hd : BlackScholes.stock o m = .ok d) (hp' : d.price = .num S) (hσ' : d.sigma = .num σ) (hr' : m.r = .num r) (hc' : d.coupon.getD (lit 0) = .num c)

include hd hσ' hr' hc' in
/-- Puts. -/
theorem cn_put_rounding (ho : o.payoff = .vanilla .put (.num K)) (G : ModerateCN σ r c K S T X J N) (junk : ℕ → Dbl .binary64) :
    ∃ s, construct (.crankNicolson thomas) (.num X) J (.num T) N (BlackScholes.pde o m) junk = .ok s ∧ ∃ n, (n = N - 1 ∨ n = N) ∧
      ∀ fuel, N < fuel → ∀ p, Describes p (putProblem σ r c K) → ∀ (junk' : ℕ → ℝ) (s' : Fdm ℝ),
        construct (.crankNicolson thomas) X J (n * (T / (N - 1))) (n + 1) p junk' = .ok s' → ∀ fuel', n + 1 ≤ fuel' → ∃ y y' : ℝ,
          (calculatePrice (.crankNicolson thomas) .linear (BlackScholes.pde o m) (.ok (.num S)) fuel s).1 = .ok (.num y) ∧
          (calculatePrice (.crankNicolson thomas) .linear p (.ok S) fuel' s').1 = .ok y' ∧ |y - y'| ≤ cnRounding K X J N := by
  obtain ⟨h1, h2, h3, h4⟩ := grid_h G.toGridSizes
  obtain ⟨k1, k2, k3⟩ := grid_k G.toGridSizes
  obtain ⟨m1, m2, m3⟩ := grid_M G.toGridSizes
  have hK := G.strike.1
  have hX : 0 < X := lt_of_lt_of_le (by norm_num) G.width.1
  have hN1 := G.levels.1
  obtain ⟨s, v, hs, hg, ht, hsol, hold, hv⟩ := construct_double (o := o) (m := m) G.toGridSizes (.crankNicolson thomas) junk (w := fun j => max (K - j * (X / ((J : ℝ) - 1))) 0)
    (e := (X + K) / 2 ^ 49) (fun j hj x hx => by
      obtain ⟨v, e, hv⟩ := (payoff_double G.toGridSizes hj hx).1
      exact ⟨v, by simp [BlackScholes.pde, Payoff.eval1, ho, e, -Dbl.lit_zero], hv⟩)
  obtain ⟨n, hn, hloop⟩ := steps_moderate G.toGridSizes hs
  have hn0 : 0 < n := by omega
  have hnr : (0 : ℝ) < n := by exact_mod_cast hn0
  obtain ⟨t1, t2⟩ := cn_total G (n := n) (e := (X + K) / 2 ^ 49) (by omega) (by
    have : (1 : ℝ) ≤ N := by exact_mod_cast (by omega : 1 ≤ N)
    have := le_mul_of_one_le_left (by linarith : 0 ≤ X + K) this
    linarith)
  refine ⟨s, hs, n, hn, fun fuel hf p hp junk' s' hs' fuel' hf' => ?_⟩
  obtain ⟨y, y', e1, e2, e3⟩ := cnPrice_double hd hσ' hr' hc' G.rate.1 G.drift (by linarith [G.weights]) (by rw [abs_of_pos G.vol.1]; exact G.vol.2) G.rate.2
    (k2.trans G.maturity.2) h1 h2 G.inner G.nodes.2 k1 hg (construct_b hs) ht hsol hold hp put_coefficients (put_dominates G.drift G.rate.1 J h3.le) (X := X) (T := n * (T / (N - 1))) (M := 4 * (X + K)) (e := (X + K) / 2 ^ 49) (S := S) hn0 rfl
    (by push_cast; rw [add_sub_cancel_right, mul_div_cancel_left₀ _ hnr.ne']) (m1.trans (by linarith)) ((by linarith : 4 * (X + K) ≤ 4 * 2 ^ 20).trans (by norm_num)) t1 hv
    (fun j hj => by
      change |max (K - _) 0| ≤ _
      rw [abs_of_nonneg (le_max_right _ _)]
      exact max_le (by have : (0 : ℝ) ≤ j * (X / ((J : ℝ) - 1)) := by positivity
                       linarith) (by linarith))
    (fun i _ => ⟨K, by simp [BlackScholes.pde, BlackScholes.boundaryLeft, BlackScholes.strike, Payoff.clone, Payoff.payoffType, ho], by
      change |K - K| ≤ _
      rw [sub_self, abs_zero]
      positivity⟩)
    (fun i _ => by
      change |K| ≤ _
      rw [abs_of_pos hK]
      linarith)
    (fun i _ => ⟨0, by simp [BlackScholes.pde, BlackScholes.boundaryRight, BlackScholes.strike, Payoff.clone, Payoff.payoffType, ho], by
      change |(0 : ℝ) - 0| ≤ _
      rw [sub_self, abs_zero]
      positivity⟩)
    (fun i _ => by
      change |(0 : ℝ)| ≤ _
      rw [abs_zero]
      linarith)
    (hloop fuel hf) (by linarith [G.spot.1]) G.spot.2 hs' hf'
  exact ⟨y, y', e1, e2, e3.trans t2⟩

include hd hσ' hr' hc' in
/-- Calls. -/
theorem cn_call_rounding (ho : o.payoff = .vanilla .call (.num K)) (hT' : o.T = .num T) (hrk : r * (T / ((N : ℝ) - 1)) ≤ 1) (G : ModerateCN σ r c K S T X J N) (junk : ℕ → Dbl .binary64) :
    ∃ s, construct (.crankNicolson thomas) (.num X) J (.num T) N (BlackScholes.pde o m) junk = .ok s ∧ ∃ n, (n = N - 1 ∨ n = N) ∧
      ∀ fuel, N < fuel → ∀ p, Describes p (callProblem σ r c K T) → ∀ (junk' : ℕ → ℝ) (s' : Fdm ℝ),
        construct (.crankNicolson thomas) X J (n * (T / (N - 1))) (n + 1) p junk' = .ok s' → ∀ fuel', n + 1 ≤ fuel' → ∃ y y' : ℝ,
          (calculatePrice (.crankNicolson thomas) .linear (BlackScholes.pde o m) (.ok (.num S)) fuel s).1 = .ok (.num y) ∧
          (calculatePrice (.crankNicolson thomas) .linear p (.ok S) fuel' s').1 = .ok y' ∧ |y - y'| ≤ cnRounding K X J N := by
  obtain ⟨h1, h2, h3, h4⟩ := grid_h G.toGridSizes
  obtain ⟨k1, k2, k3⟩ := grid_k G.toGridSizes
  obtain ⟨m1, m2, m3⟩ := grid_M G.toGridSizes
  have hK := G.strike.1
  have hX : 0 < X := lt_of_lt_of_le (by norm_num) G.width.1
  have hN1 := G.levels.1
  have hN1' : (1 : ℝ) ≤ N := by exact_mod_cast (by omega : 1 ≤ N)
  have he : (X + K) / 2 ^ 49 ≤ N * (X + K) / 2 ^ 36 := by
    have := le_mul_of_one_le_left (by linarith : 0 ≤ X + K) hN1'
    linarith
  obtain ⟨s, v, hs, hg, ht, hsol, hold, hv⟩ := construct_double (o := o) (m := m) G.toGridSizes (.crankNicolson thomas) junk (w := fun j => max (j * (X / ((J : ℝ) - 1)) - K) 0)
    (e := N * (X + K) / 2 ^ 36) (fun j hj x hx => by
      obtain ⟨v, e, hv⟩ := (payoff_double G.toGridSizes hj hx).2
      exact ⟨v, by simp [BlackScholes.pde, Payoff.eval1, ho, e, -Dbl.lit_zero], hv.trans he⟩)
  obtain ⟨n, hn, hloop⟩ := steps_moderate G.toGridSizes hs
  have hn0 : 0 < n := by omega
  have hnr : (0 : ℝ) < n := by exact_mod_cast hn0
  obtain ⟨t1, t2⟩ := cn_total G (n := n) (e := N * (X + K) / 2 ^ 36) (by omega) le_rfl
  have hpos : 0 ≤ N * (X + K) / 2 ^ 36 := le_trans (by positivity) he
  have hlast := node_double h1 h2 G.nodes.2 hg.dx (j := J - 1) (by have := G.nodes.1; omega)
  rw [grid_last G.toGridSizes] at hlast
  refine ⟨s, hs, n, hn, fun fuel hf p hp junk' s' hs' fuel' hf' => ?_⟩
  have q1 : ∀ x, (callProblem σ r c K T).initial x = max (x - K) 0 := fun _ => rfl
  have q2 : ∀ t, (callProblem σ r c K T).left t 0 = 0 := fun _ => rfl
  have q3 : ∀ t, (callProblem σ r c K T).right t X = X - K * Real.exp (-r * (T - t)) := fun _ => rfl
  have hτ : ∀ i : ℕ, (i : ℝ) * (T / ((N : ℝ) - 1)) + T / ((N : ℝ) - 1) = ((i + 1 : ℕ) : ℝ) * (T / ((N : ℝ) - 1)) := fun i => by push_cast; ring
  obtain ⟨y, y', e1, e2, e3⟩ := cnPrice_double hd hσ' hr' hc' G.rate.1 G.drift (by linarith [G.weights]) (by rw [abs_of_pos G.vol.1]; exact G.vol.2) G.rate.2
    (k2.trans G.maturity.2) h1 h2 G.inner G.nodes.2 k1 hg (construct_b hs) ht hsol hold hp call_coefficients (call_dominates G.drift G.rate.1 J h3.le) (X := X) (T := n * (T / (N - 1))) (M := 4 * (X + K)) (e := N * (X + K) / 2 ^ 36) (S := S) hn0 rfl
    (by push_cast; rw [add_sub_cancel_right, mul_div_cancel_left₀ _ hnr.ne']) (m1.trans (by linarith)) ((by linarith : 4 * (X + K) ≤ 4 * 2 ^ 20).trans (by norm_num)) t1 (fun j hj => by rw [q1]; exact hv j hj)
    (fun j hj => by
      rw [q1, abs_of_nonneg (le_max_right _ _)]
      exact max_le (by have := h4 j hj
                       linarith) (by linarith))
    (fun i _ => ⟨0, by simp [BlackScholes.pde, BlackScholes.boundaryLeft, BlackScholes.strike, Payoff.clone, Payoff.payoffType, ho], by
      rw [q2, sub_self, abs_zero]
      exact hpos⟩)
    (fun i _ => by
      rw [q2, abs_zero]
      linarith)
    (fun i hi => by
      obtain ⟨y, e, hy, -⟩ := right_late hrk G.toGridSizes hg.dt hlast (i := i + 1) (by omega)
      refine ⟨y, ?_, by rw [q3, hτ]; exact hy⟩
      rw [← e]
      simp [BlackScholes.pde, BlackScholes.boundaryRight, BlackScholes.strike, Payoff.clone, Payoff.payoffType, ho, hr', hT'])
    (fun i hi => by
      rw [q3, hτ]
      exact (right_late hrk G.toGridSizes hg.dt hlast (i := i + 1) (by omega)).choose_spec.2.2.trans (by linarith))
    (hloop fuel hf) (by linarith [G.spot.1]) G.spot.2 hs' hf'
  exact ⟨y, y', e1, e2, e3.trans t2⟩

end

end Fdm
end Verif
