import Verif.Lemmas.FdmRounding

/-!
# The whole run of explicit Euler in binary64
-/

set_option exponentiation.threshold 3000

namespace Verif
open Spec

namespace Fdm

section
variable {F : Type} [Fl F] [Add F] [Sub F] [Mul F] [Div F] [Neg F]

/-- One step of explicit Euler when nothing throws. -/
theorem step_explicit {p : Pde F} {s : Fdm F} {xs w : ℕ → F} {l r : F} (hJ : 2 ≤ s.J) (hx : s.xValues = vec s.J xs) (hn : s.newPrices.length = s.J)
    (hl : p.boundaryLeft s.tPrev (xs 0) = .ok l) (hr : p.boundaryRight s.tPrev (xs (s.J - 1)) = .ok r)
    (hw : ∀ j, 1 ≤ j → j + 1 < s.J → explicitValue p j s = .ok (w j)) :
    step .explicit p s = (.ok (), { s with
      tCurr := s.tPrev + s.dt, tPrev := s.tPrev + s.dt,
      newPrices := vec s.J fun j => if 1 ≤ j ∧ j + 1 < s.J then w j else if j = s.J - 1 then r else l,
      oldPrices := vec s.J fun j => if 1 ≤ j ∧ j + 1 < s.J then w j else if j = s.J - 1 then r else l }) := by
  have en := eq_vec (lit 0 : F) s.newPrices
  rw [hn] at en
  have hm : march .explicit p { s with tCurr := s.tPrev + s.dt } = (.ok (), { s with
      tCurr := s.tPrev + s.dt, newPrices := vec s.J fun j => if 1 ≤ j ∧ j + 1 < s.J then w j else if j = s.J - 1 then r else l }) := by
    unfold march
    dsimp only
    rw [Eff.bind_of_ok (boundary_ok (p := p) (time := (·.tPrev)) (s := { s with tCurr := s.tPrev + s.dt }) hJ en hx (fun _ => rfl) hl hr)]
    unfold innerExplicit
    rw [Eff.withState_apply]
    dsimp only
    rw [ulpred_pos (by omega)]
    refine (forJ_store (N := s.J) (w := w) { s with tCurr := s.tPrev + s.dt } (s.J - 1 - 1) 1 _ (by omega)
      (fun j h1 h2 v _ => hw j h1 (by omega))).trans ?_
    refine congrArg (fun v => (Res.ok (), { s with tCurr := s.tPrev + s.dt, newPrices := v })) (vec_congr fun k hk => ?_)
    by_cases h : 1 ≤ k ∧ k + 1 < s.J
    · rw [if_pos h, if_pos (by omega)]
    · rw [if_neg h, if_neg (by omega)]
      by_cases h' : k = s.J - 1
      · rw [if_pos h', if_pos h']
      · rw [if_neg h', if_neg h', if_pos (by omega)]
  exact step_of_march hm

end

theorem forN_snoc {σ : Type} {e : Eff σ Unit} : ∀ {n : ℕ} {s s' s'' : σ}, Eff.forN (fun _ => e) n () s = (.ok (), s') → e s' = (.ok (), s'') →
    Eff.forN (fun _ => e) (n + 1) () s = (.ok (), s'')
  | 0, s, s', s'', h1, h2 => by
    obtain rfl : s = s' := (Prod.mk.inj h1).2
    rw [Eff.forN, Eff.bind_of_ok h2]
    rfl
  | n + 1, s, s', s'', h1, h2 => by
    rw [Eff.forN] at h1 ⊢
    rcases he : e s with ⟨r, s1⟩
    cases r with
    | ok a =>
      rw [Eff.bind_of_ok he] at h1 ⊢
      exact forN_snoc h1 h2
    | throw x => rw [Eff.bind_of_throw he] at h1; cases (Prod.mk.inj h1).1
    | ub => rw [Eff.bind_of_ub he] at h1; cases (Prod.mk.inj h1).1

/-- The step sizes and the grid as computed in doubles. -/
structure DoubleGrid (J : ℕ) (h k : ℝ) (s : Fdm (Dbl .binary64)) : Prop where
  two : 2 ≤ s.J
  size : s.J = J
  dx : Nr 0 1 h s.dx h
  dx2 : s.dx2 = s.dx * s.dx
  dt : Nr 0 1 k s.dt k
  xs : s.xValues = vec s.J fun j => lit (j : ℚ) * s.dx
  new : s.newPrices.length = s.J

section
variable {o : OptObj (Dbl .binary64)} {m : Market (Dbl .binary64)} {d : StockData (Dbl .binary64)} {σ r c h k V : ℝ} {J : ℕ}
  (hd : BlackScholes.stock o m = .ok d) (hσ' : d.sigma = .num σ) (hr' : m.r = .num r) (hc' : d.coupon.getD (lit 0) = .num c)
  (hk : 0 ≤ k) (hr : 0 ≤ r) (hb : |r - c| ≤ σ ^ 2) (hw : k * (σ ^ 2 * (J : ℝ) ^ 2 + r) ≤ 1)
  (hσ : |σ| ≤ 2 ^ 10) (hr2 : r ≤ 2 ^ 10) (hk2 : k ≤ 2 ^ 10) (hh : 2 ^ (-30 : ℤ) ≤ h) (hh2 : J * h ≤ 2 ^ 20) (hJ2 : J ≤ 2 ^ 20)

include hh hh2 hJ2 in
/-- The nodes. -/
theorem node_double {dx : Dbl .binary64} (hdx : Nr 0 1 h dx h) {j : ℕ} (hj : j < J) : Nr 1 2 (j * h) (lit (j : ℚ) * dx) (j * h) := by
  have hh0 : 0 < h := lt_of_lt_of_le (by positivity) hh
  have hj' : (j : ℝ) ≤ 2 ^ 20 := by exact_mod_cast (by omega : j ≤ 2 ^ 20)
  have hJ1 : (1 : ℝ) ≤ J := by exact_mod_cast (by omega : 1 ≤ J)
  have h1 : h ≤ 2 ^ 20 := (le_mul_of_one_le_left hh0.le hJ1).trans hh2
  exact (Nr.nat (n := j) (by omega)).mul hdx (by omega) (by norm_num) (by norm_num) (hj'.trans (by norm_num)) (h1.trans (by norm_num))

include hd hσ' hr' hc' hk hr hb hw hσ hr2 hk2 hh hh2 hJ2 in
/-- One step of the run. -/
theorem step_double {s : Fdm (Dbl .binary64)} (hs : DoubleGrid J h k s) {v u u' : ℕ → ℝ} {E l R : ℝ} (ho : s.oldPrices = vec J fun j => .num (v j))
    (hV : V ≤ 2 ^ 50) (hv : ∀ i < J, |v i| ≤ V) (huv : ∀ i < J, |v i - u i| ≤ E) (hu : ∀ j, 1 ≤ j → j + 1 < J → u' j = eulerStep σ r c h k j u)
    (hl : (BlackScholes.pde o m).boundaryLeft s.tPrev (lit ((0 : ℕ) : ℚ) * s.dx) = .ok (.num l))
    (hR : (BlackScholes.pde o m).boundaryRight s.tPrev (lit ((J - 1 : ℕ) : ℚ) * s.dx) = .ok (.num R)) :
    ∃ (s' : Fdm (Dbl .binary64)) (v' : ℕ → ℝ), step .explicit (BlackScholes.pde o m) s = (.ok (), s') ∧ DoubleGrid J h k s' ∧ s'.dt = s.dt ∧ s'.dx = s.dx ∧
      s'.tPrev = s.tPrev + s.dt ∧ s'.solved = s.solved ∧ s'.oldPrices = vec J (fun j => .num (v' j)) ∧ s'.newPrices = vec J (fun j => .num (v' j)) ∧
      v' 0 = l ∧ v' (J - 1) = R ∧ ∀ j, 1 ≤ j → j + 1 < J → |v' j - u' j| ≤ E + (2 ^ (-45 : ℤ) * V + 2 ^ (-165 : ℤ)) := by
  obtain rfl := hs.size
  have hh0 : 0 < h := lt_of_lt_of_le (by positivity) hh
  have two := hs.two
  have hJ1 : (1 : ℝ) ≤ s.J := by exact_mod_cast (by omega : 1 ≤ s.J)
  have h1 : h ≤ 2 ^ 20 := (le_mul_of_one_le_left hh0.le hJ1).trans hh2
  have key : ∀ j, ∃ z : ℝ, 1 ≤ j → j + 1 < s.J → explicitValue (BlackScholes.pde o m) j s = .ok (.num z) ∧
      |z - eulerStep σ r c h k j v| ≤ 2 ^ (-45 : ℤ) * V + 2 ^ (-165 : ℤ) := by
    intro j
    by_cases hj : 1 ≤ j ∧ j + 1 < s.J
    · have hx2 : j * h ≤ 2 ^ 20 := by
        have : (j : ℝ) ≤ s.J := by exact_mod_cast (by omega : j ≤ s.J)
        refine le_trans ?_ hh2
        gcongr
      obtain ⟨z, e, hz⟩ := eulerStep_double (σ := σ) (r := r) (c := c) hs.dx hs.dt (node_double hh hh2 hJ2 hs.dx (by omega : j < s.J)) hk hr hb hw hσ hr2 hk2 hh h1 hx2
        hj.2 hV hv
      refine ⟨z, fun _ _ => ⟨?_, hz⟩⟩
      rw [← e]
      simp [explicitValue, sigs, hs.xs, ho, vget_vec, show j < s.J by omega, show j - 1 < s.J by omega, hj.2, BlackScholes.pde, BlackScholes.diffusion,
        BlackScholes.convection, hd, hσ', hr', hc', hs.dx2, -Dbl.lit_zero, -one_div]
    · exact ⟨0, fun a b => absurd ⟨a, b⟩ hj⟩
  choose z hz using key
  have e := step_explicit (p := BlackScholes.pde o m) (w := fun j => .num (z j)) two hs.xs hs.new hl hR (fun j a b => (hz j a b).1)
  refine ⟨_, fun j => if 1 ≤ j ∧ j + 1 < s.J then z j else if j = s.J - 1 then R else l, e, ?_, rfl, rfl, rfl, rfl, ?_, ?_, ?_, ?_, ?_⟩
  · exact ⟨two, rfl, hs.dx, hs.dx2, hs.dt, hs.xs, by simp⟩
  · refine vec_congr fun j _ => ?_
    dsimp only
    split_ifs <;> rfl
  · refine vec_congr fun j _ => ?_
    dsimp only
    split_ifs <;> rfl
  · dsimp only
    rw [if_neg (by omega), if_neg (by omega)]
  · dsimp only
    rw [if_neg (by omega), if_pos rfl]
  · intro j a b
    dsimp only
    rw [if_pos ⟨a, b⟩, hu j a b]
    have c1 := (hz j a b).2
    have c2 := eulerStep_lipschitz (h := h) hh0.ne' hk hr hb hw a b huv
    have := abs_sub_le (z j) (eulerStep σ r c h k j v) (eulerStep σ r c h k j u)
    linarith

include hd hσ' hr' hc' hk hr hb hw hσ hr2 hk2 hh hh2 hJ2 in
/-- The errors add up at most linearly. -/
theorem run_double {s : Fdm (Dbl .binary64)} (hs : DoubleGrid J h k s) (ht : s.tPrev = lit 0) (hsol : s.solved = false) {v₀ : ℕ → ℝ} (ho : s.oldPrices = vec J fun j => .num (v₀ j))
    {U : ℕ → ℕ → ℝ} {M e : ℝ} {n : ℕ} (hM : ∀ i ≤ n, ∀ j < J, |U i j| ≤ M) (hM2 : M ≤ 2 ^ 49) (hn : (n : ℝ) * (2 ^ (-45 : ℤ) * (2 * M) + 2 ^ (-165 : ℤ)) + e ≤ M)
    (h0 : ∀ j < J, |v₀ j - U 0 j| ≤ e) (hU : ∀ i < n, ∀ j, 1 ≤ j → j + 1 < J → U (i + 1) j = eulerStep σ r c h k j (U i))
    (hl : ∀ i < n, ∃ l : ℝ, (BlackScholes.pde o m).boundaryLeft (times s.dt i) (lit ((0 : ℕ) : ℚ) * s.dx) = .ok (.num l) ∧ |l - U (i + 1) 0| ≤ e)
    (hR : ∀ i < n, ∃ l : ℝ, (BlackScholes.pde o m).boundaryRight (times s.dt i) (lit ((J - 1 : ℕ) : ℚ) * s.dx) = .ok (.num l) ∧ |l - U (i + 1) (J - 1)| ≤ e) :
    ∃ (s' : Fdm (Dbl .binary64)) (v : ℕ → ℝ), Eff.forN (fun _ => step .explicit (BlackScholes.pde o m)) n () s = (.ok (), s') ∧ DoubleGrid J h k s' ∧ s'.dx = s.dx ∧
      s'.dt = s.dt ∧ s'.tPrev = times s.dt n ∧ s'.solved = false ∧ s'.oldPrices = vec J (fun j => .num (v j)) ∧ (0 < n → s'.newPrices = vec J (fun j => .num (v j))) ∧
      ∀ j < J, |v j - U n j| ≤ n * (2 ^ (-45 : ℤ) * (2 * M) + 2 ^ (-165 : ℤ)) + e := by
  have two := hs.size ▸ hs.two
  have he : 0 ≤ e := (abs_nonneg _).trans (h0 0 (by omega))
  have hM0 : 0 ≤ M := (abs_nonneg _).trans (hM 0 (by omega) 0 (by omega))
  have hρ : (0 : ℝ) ≤ 2 ^ (-45 : ℤ) * (2 * M) + 2 ^ (-165 : ℤ) := by positivity
  induction n with
  | zero => exact ⟨s, v₀, rfl, hs, rfl, rfl, ht, hsol, ho, fun h => absurd h (lt_irrefl 0), fun j hj => by simpa using h0 j hj⟩
  | succ n ih =>
    have hn' : (n : ℝ) * (2 ^ (-45 : ℤ) * (2 * M) + 2 ^ (-165 : ℤ)) + e ≤ M := by
      push_cast at hn
      linarith
    obtain ⟨s', v, e1, g, e2, e3, e4, e5, e6, e7, e8⟩ := ih (fun i hi => hM i (by omega)) hn' (fun i hi => hU i (by omega)) (fun i hi => hl i (by omega))
      (fun i hi => hR i (by omega))
    obtain ⟨l, hl1, hl2⟩ := hl n (by omega)
    obtain ⟨R, hR1, hR2⟩ := hR n (by omega)
    have hv : ∀ i < J, |v i| ≤ 2 * M := by
      intro i hi
      have a := e8 i hi
      have b := hM n (by omega) i hi
      have := abs_add_le (v i - U n i) (U n i)
      rw [sub_add_cancel] at this
      linarith
    obtain ⟨s'', v', f1, f2, f3, f4, f5, f6, f7, f8, f9, f10, f11⟩ := step_double hd hσ' hr' hc' hk hr hb hw hσ hr2 hk2 hh hh2 hJ2 g (V := 2 * M) (u := U n) (u' := U (n + 1))
      (l := l) (R := R) e6 (by linarith) hv e8 (hU n (by omega)) (by rw [e4, e2]; exact hl1) (by rw [e4, e2]; exact hR1)
    refine ⟨s'', v', ?_, f2, f4.trans e2, f3.trans e3, ?_, f6.trans e5, f7, fun _ => f8, fun j hj => ?_⟩
    · exact forN_snoc e1 f1
    · rw [f5, e4, e3]; rfl
    · push_cast
      have hpos : (0 : ℝ) ≤ (n + 1) * (2 ^ (-45 : ℤ) * (2 * M) + 2 ^ (-165 : ℤ)) := by positivity
      by_cases hj0 : j = 0
      · subst hj0
        rw [f9]
        linarith
      · by_cases hj1 : j = J - 1
        · rw [hj1, f10]
          linarith
        · have := f11 j (by omega) (by omega)
          linarith

end

end Fdm
end Verif
