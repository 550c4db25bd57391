import Verif.Lemmas.DigitalValue
import Verif.Props.FdmPrice
import Verif.Spec.FdmDigitalSpec

/-!
# Property C84: finite difference prices of digital options
-/

namespace Verif
open Spec MeasureTheory ProbabilityTheory

namespace Fdm
open Set

variable {σ r c K δ : ℝ}

/-- The schemes whose explicit part has non-negative weights for the time step `k`, where `v` is the largest decay rate on the grid. -/
inductive Stable (k v : ℝ) : Scheme ℝ → Prop
  | implicit : Stable k v (.implicit thomas)
  | explicit (h : k * v ≤ 1) : Stable k v .explicit
  | crankNicolson (h : k / 2 * v ≤ 1) : Stable k v (.crankNicolson thomas)

section
variable {sc : Scheme ℝ} {p : Pde ℝ} {q : Problem} (hp : Describes p q) (hq : BlackScholesCoefficients q σ r c) (hr : 0 ≤ r) {X T : ℝ} {J N : ℕ}
  (hX : 0 < X) (hT : 0 < T) (hd : DiffusionDominates q J (X / (J - 1)))

include hp hq hX hT hd in
/-- What the three schemes have in common: weights `1 - θ` and `θ` for the old and the new level, boundary values of the equation at some time, and
Crank-Nicolson replaces the old boundary values by 0. -/
theorem scheme_run (hJ : 4 ≤ J) (hm : J ≤ 2 ^ 31) (hN : 2 ≤ N) (hsc : Stable (T / (N - 1)) (σ ^ 2 * (J : ℝ) ^ 2 + r) sc) (junk : ℕ → ℝ) :
    ∃ θ : ℝ, 0 ≤ θ ∧ θ ≤ 1 ∧ (∀ t j, 1 ≤ j → j + 1 < J →
      0 ≤ 1 - (1 - θ) * (T / (N - 1)) * (2 * q.D t (j * (X / (J - 1))) / (X / (J - 1)) ^ 2 - q.R t (j * (X / (J - 1))))) ∧
    ∃ s, construct sc X J T N p junk = .ok s ∧ ∀ fuel, N ≤ fuel → ∃ U V : ℕ → ℕ → ℝ,
      (solve sc p fuel s).1 = .ok ((List.range J).map (U (N - 1))) ∧ (∀ j < J, U 0 j = q.initial (j * (X / (J - 1)))) ∧ ∀ n < N - 1,
        (∀ j, 1 ≤ j → j + 1 < J → V n j = U n j) ∧
        (∀ j, 1 ≤ j → j + 1 < J → (U (n + 1) j - U n j) / (T / (N - 1)) = (1 - θ) * central q (X / (J - 1)) (n * (T / (N - 1))) (V n) j +
          θ * central q (X / (J - 1)) (n * (T / (N - 1)) + T / (N - 1)) (U (n + 1)) j) ∧
        (∃ t ∈ Icc 0 T, U (n + 1) 0 = q.left t 0 ∧ U (n + 1) (J - 1) = q.right t X) ∧
        (V n 0 = U n 0 ∧ V n (J - 1) = U n (J - 1) ∨ V n 0 = 0 ∧ V n (J - 1) = 0) := by
  have hJ1 : (0 : ℝ) < J - 1 := by
    have : (4 : ℝ) ≤ J := by exact_mod_cast hJ
    linarith
  have hN1 : (0 : ℝ) < N - 1 := by
    have : (2 : ℝ) ≤ N := by exact_mod_cast hN
    linarith
  have hh0 : 0 < X / ((J : ℝ) - 1) := div_pos hX hJ1
  have hk0 : 0 < T / ((N : ℝ) - 1) := div_pos hT hN1
  have hmem : ∀ n ≤ N - 1, (n : ℝ) * (T / (N - 1)) ∈ Icc 0 T := fun n hn => time_le hN hT hn
  have hmem' : ∀ n < N - 1, (n : ℝ) * (T / (N - 1)) + T / (N - 1) ∈ Icc 0 T := fun n hn => by
    have := hmem (n + 1) (by omega)
    push_cast at this
    rwa [show ((n : ℝ) + 1) * (T / (N - 1)) = n * (T / (N - 1)) + T / (N - 1) by ring] at this
  cases hsc with
  | implicit =>
    obtain ⟨s, hs, h⟩ := C55_thomas p q hp X T J N junk hJ hm hN hX hT hd
    refine ⟨1, zero_le_one, le_rfl, fun t j _ _ => by norm_num, s, hs, fun fuel hfuel => ?_⟩
    obtain ⟨U, hu, h0, hn⟩ := h fuel hfuel
    refine ⟨U, U, hu, h0, fun n hn' => ?_⟩
    obtain ⟨e, b0, bJ⟩ := hn n hn'
    refine ⟨fun _ _ _ => rfl, fun j h1 h2 => ?_, ⟨_, hmem' n hn', b0, bJ⟩, Or.inl ⟨rfl, rfl⟩⟩
    rw [e j h1 h2]
    ring
  | explicit hw =>
    obtain ⟨s, hs, h⟩ := C54_partial p q hp X T J N junk (by omega) hN hX hT
    refine ⟨0, le_rfl, zero_le_one, fun t j h1 h2 => by simpa using weights_ok hq hh0 hk0.le hw t j h2, s, hs, fun fuel hfuel => ?_⟩
    obtain ⟨U, hu, h0, hn⟩ := h fuel hfuel
    refine ⟨U, U, hu, h0, fun n hn' => ?_⟩
    obtain ⟨e, b0, bJ⟩ := hn n hn'
    refine ⟨fun _ _ _ => rfl, fun j h1 h2 => ?_, ⟨_, hmem n hn'.le, b0, bJ⟩, Or.inl ⟨rfl, rfl⟩⟩
    rw [e j h1 h2]
    ring
  | crankNicolson hw =>
    obtain ⟨s, hs, h⟩ := C56_partial p q hp X T J N junk hJ hm hN hX hT hd
    refine ⟨1 / 2, by norm_num, by norm_num, fun t j h1 h2 => ?_, s, hs, fun fuel hfuel => ?_⟩
    · have := weights_ok hq hh0 (half_pos hk0).le hw t j h2
      rwa [show (1 - 1 / 2 : ℝ) * (T / (N - 1)) = T / (N - 1) / 2 by ring]
    obtain ⟨U, hu, h0, hn⟩ := h fuel hfuel
    refine ⟨U, fun n => withoutEnds J (U n), hu, h0, fun n hn' => ?_⟩
    obtain ⟨e, b0, bJ⟩ := hn n hn'
    refine ⟨fun j h1 h2 => if_pos ⟨h1, h2⟩, fun j h1 h2 => ?_, ⟨_, hmem' n hn', b0, bJ⟩, Or.inr ⟨if_neg (by omega), if_neg (by omega)⟩⟩
    rw [e j h1 h2]
    norm_num

variable (hκ : (σ ^ 2 + 2 * |r - c|) * (T / (N - 1)) ≤ 1 / 2) {g1 g2 : ℝ → ℝ} {R B0 B1 B2 B3 B4 : ℝ} (P1 : SmoothPayoff g1 R B0 B1 B2 B3 B4)
  (P2 : SmoothPayoff g2 R B0 B1 B2 B3 B4) (hR : 0 ≤ R) {A B BL BR Γ : ℝ}
  (hi : ∀ x, 0 ≤ x → portfolio g1 σ r c A B 0 x ≤ q.initial x ∧ q.initial x ≤ portfolio g2 σ r c A B 0 x)
  (hl1 : ∀ t ∈ Icc 0 T, |portfolio g1 σ r c A B t 0| ≤ BL ∧ |portfolio g1 σ r c A B t X| ≤ BR)
  (hl2 : ∀ t ∈ Icc 0 T, |portfolio g2 σ r c A B t 0| ≤ BL ∧ |portfolio g2 σ r c A B t X| ≤ BR)
  (hq1 : ∀ t ∈ Icc 0 T, ∀ t' ∈ Icc 0 T, |q.left t 0 - portfolio g1 σ r c A B t' 0| ≤ BL ∧ |q.right t X - portfolio g1 σ r c A B t' X| ≤ BR)
  (hq2 : ∀ t ∈ Icc 0 T, ∀ t' ∈ Icc 0 T, |q.left t 0 - portfolio g2 σ r c A B t' 0| ≤ BL ∧ |q.right t X - portfolio g2 σ r c A B t' X| ≤ BR)
  (hΓ : ∀ x, 0 ≤ x → portfolio g2 σ r c A B T x - portfolio g1 σ r c A B T x ≤ Γ)

include hp hq hr hX hT hd hκ P1 P2 hR hi hl1 hl2 hq1 hq2 hΓ in
/-- Prices computed by the schemes for a payoff between two smooth payoffs. -/
theorem sandwich_price (kd : Interp.Kind) (hJ : 4 ≤ J) (hm : J ≤ 2 ^ 31) (hN : 2 ≤ N) (hsc : Stable (T / (N - 1)) (σ ^ 2 * (J : ℝ) ^ 2 + r) sc)
    (hΓ0 : 0 ≤ Γ) (junk : ℕ → ℝ) {S : ℝ} (hS : 0 < S) (hSX : S ≤ X) (hh : 2 * (X / (J - 1)) ≤ S) :
    ∃ s, construct sc X J T N p junk = .ok s ∧ ∀ fuel, N ≤ fuel → ∃ y, (calculatePrice sc kd p (.ok S) fuel s).1 = .ok y ∧
      |y - portfolio g1 σ r c A B T S| ≤ 5 / 4 * (Γ + T * truncation (X / (J - 1)) (T / (N - 1)) (σ ^ 2 / 2 * X ^ 2) (|r - c| * X)
        (timeBound σ r c R B0 B1 B2 B3 B4 + |A| * X * c ^ 2 * Real.exp (|c| * T) + |B| * r ^ 2) (B3 * Real.exp ((3 * |r - c| + 3 * σ ^ 2) * T))
        (B4 * Real.exp ((4 * |r - c| + 6 * σ ^ 2) * T)) + boundaryEffect σ r c T S X (X / (J - 1)) BL BR) +
        B2 * Real.exp ((2 * |r - c| + σ ^ 2) * T) * (X / (J - 1)) ^ 2 / 2 := by
  obtain ⟨θ, hθ0, hθ1, hw, s, hs, hrun⟩ := scheme_run hp hq hX hT hd hJ hm hN hsc junk
  refine ⟨s, hs, fun fuel hfuel => ?_⟩
  obtain ⟨U, V, hsol, h0, hrun⟩ := hrun fuel hfuel
  have hJ1 : (0 : ℝ) < J - 1 := by
    have : (4 : ℝ) ≤ J := by exact_mod_cast hJ
    linarith
  have hN1 : (0 : ℝ) < N - 1 := by
    have : (2 : ℝ) ≤ N := by exact_mod_cast hN
    linarith
  have hh0 : 0 < X / ((J : ℝ) - 1) := div_pos hX hJ1
  have hk0 : 0 < T / ((N : ℝ) - 1) := div_pos hT hN1
  have hBL : 0 ≤ BL := (abs_nonneg _).trans (hl1 0 ⟨le_rfl, hT.le⟩).1
  have hBR : 0 ≤ BR := (abs_nonneg _).trans (hl1 0 ⟨le_rfl, hT.le⟩).2
  have hB2 : 0 ≤ B2 := P1.nonneg.2.2.1
  have hmem : ∀ n ≤ N - 1, (n : ℝ) * (T / (N - 1)) ∈ Icc 0 T := fun n hn => time_le hN hT hn
  have hmem' : ∀ n < N - 1, (n : ℝ) * (T / (N - 1)) + T / (N - 1) ∈ Icc 0 T := fun n hn => by
    have := hmem (n + 1) (by omega)
    push_cast at this
    rwa [show ((n : ℝ) + 1) * (T / (N - 1)) = n * (T / (N - 1)) + T / (N - 1) by ring] at this
  have side : ∀ (g : ℝ → ℝ) (P : SmoothPayoff g R B0 B1 B2 B3 B4) (a : ℝ), |a| ≤ 1 →
      (∀ x, 0 ≤ x → a * (q.initial x - portfolio g σ r c A B 0 x) ≤ 0) →
      (∀ t ∈ Icc 0 T, |portfolio g σ r c A B t 0| ≤ BL ∧ |portfolio g σ r c A B t X| ≤ BR) →
      (∀ t ∈ Icc 0 T, ∀ t' ∈ Icc 0 T, |q.left t 0 - portfolio g σ r c A B t' 0| ≤ BL ∧ |q.right t X - portfolio g σ r c A B t' X| ≤ BR) →
      ∀ j < J, a * (U (N - 1) j - portfolio g σ r c A B T (j * (X / (J - 1)))) ≤
        barrier (σ ^ 2 + 2 * |r - c|) (T / (N - 1)) 0 (truncation (X / (J - 1)) (T / (N - 1)) (σ ^ 2 / 2 * X ^ 2) (|r - c| * X)
        (timeBound σ r c R B0 B1 B2 B3 B4 + |A| * X * c ^ 2 * Real.exp (|c| * T) + |B| * r ^ 2) (B3 * Real.exp ((3 * |r - c| + 3 * σ ^ 2) * T))
        (B4 * Real.exp ((4 * |r - c| + 6 * σ ^ 2) * T))) BL BR J (N - 1) j := by
    intro g P a ha hi hl hb
    have sg : ∀ {u v : ℝ}, |u| ≤ v → a * u ≤ 0 + v := fun {u v} h => by
      rw [zero_add]
      refine (le_abs_self _).trans ?_
      rw [abs_mul]
      exact (mul_le_mul ha h (abs_nonneg _) zero_le_one).trans (by rw [one_mul])
    have err := theta_side hq hr (portfolio_bounded hq P hR A B hr X T) (by omega : 2 ≤ J) hN hX hT hd hθ0 hθ1 hw (by linarith) le_rfl hBL hBR (U := U) (V := V) ha
      (fun j hj => by rw [h0 j hj]; exact hi _ (time_le (by omega : 2 ≤ J) hX (by omega : j ≤ J - 1)).1)
      (fun n hn => by
        obtain ⟨v, -, -, b⟩ := hrun n hn
        refine ⟨v, ?_⟩
        rcases b with ⟨e0, eJ⟩ | ⟨e0, eJ⟩
        · rw [e0, eJ]
          rcases n with _ | n
          · rw [h0 0 (by omega), h0 (J - 1) (by omega), last_node (by omega : 2 ≤ J), Nat.cast_zero, zero_mul, zero_mul]
            exact ⟨(hi 0 le_rfl).trans (by linarith), (hi X hX.le).trans (by linarith)⟩
          · obtain ⟨-, -, ⟨t, ht, b0, bJ⟩, -⟩ := hrun n (by omega)
            rw [b0, bJ]
            have := hb t ht _ (hmem (n + 1) (by omega))
            exact ⟨sg this.1, sg this.2⟩
        · rw [e0, eJ, zero_sub, zero_sub]
          have := hl _ (hmem n hn.le)
          exact ⟨sg (by rw [abs_neg]; exact this.1), sg (by rw [abs_neg]; exact this.2)⟩)
      (fun n hn => by
        obtain ⟨-, e, ⟨t, ht, b0, bJ⟩, -⟩ := hrun n hn
        rw [b0, bJ]
        have := hb t ht _ (hmem' n hn)
        exact ⟨e, sg this.1, sg this.2⟩) (N - 1) le_rfl
    rwa [last_time hN] at err
  have up := side g2 P2 1 (by simp) (fun x hx => by linarith [(hi x hx).2]) hl2 hq2
  have lo := side g1 P1 (-1) (by simp) (fun x hx => by linarith [(hi x hx).1]) hl1 hq1
  have hτ0 := truncation_nonneg (portfolio_bounded hq P1 hR A B hr X T) (h := X / (J - 1)) hX hT hk0.le
  obtain ⟨τ, hτ⟩ : ∃ τ, τ = truncation (X / (J - 1)) (T / (N - 1)) (σ ^ 2 / 2 * X ^ 2) (|r - c| * X)
        (timeBound σ r c R B0 B1 B2 B3 B4 + |A| * X * c ^ 2 * Real.exp (|c| * T) + |B| * r ^ 2) (B3 * Real.exp ((3 * |r - c| + 3 * σ ^ 2) * T))
        (B4 * Real.exp ((4 * |r - c| + 6 * σ ^ 2) * T)) := ⟨_, rfl⟩
  rw [← hτ] at up lo hτ0 ⊢
  obtain ⟨E, hE⟩ : ∃ E, E = Γ + T * τ + boundaryEffect σ r c T S X (X / (J - 1)) BL BR := ⟨_, rfl⟩
  have hE0 : 0 ≤ E := by rw [hE, boundaryEffect]; positivity
  rw [← hE]
  have hM : ∀ x ∈ Icc 0 X, |(portfolioSolution hq P1 hR A B X T).uxx T x| ≤ B2 * Real.exp ((2 * |r - c| + σ ^ 2) * T) :=
    fun x _ => portfolio_uxx hq P1 hR A B hr X T hT.le le_rfl x
  rw [price_returns hp (by omega) hN hT hs hfuel hsol]
  obtain ⟨y, hy, hb⟩ := interpolate_local kd (x := S) (E := E) (by omega) hm hh0 (last_node (by omega : 2 ≤ J)) ⟨hS.le, hSX⟩
    (by simp : ((List.range J).map (U (N - 1))).length = J)
    ((portfolioSolution hq P1 hR A B X T).hasX T ⟨hT.le, le_rfl⟩) ((portfolioSolution hq P1 hR A B X T).hasXX T ⟨hT.le, le_rfl⟩) hM hE0 (by
      intro j y hj hn
      obtain ⟨hlt, rfl⟩ := map_range_getElem? hj
      obtain ⟨n1, n2⟩ := abs_le.mp hn
      have bl := barrier_le (κ := σ ^ 2 + 2 * |r - c|) (ε := 0) (τ := τ) (BL := BL) (BR := BR) (j := j) (by omega : 2 ≤ J) hN hX hT (by positivity) hκ hBL hBR hS
        (by
          have : ((j : ℝ) + 1) * (X / (J - 1)) = j * (X / (J - 1)) + X / (J - 1) := by ring
          linarith) (by linarith)
      have u := up j hlt
      have l := lo j hlt
      have g := hΓ (j * (X / (J - 1))) (by positivity)
      rw [boundaryEffect] at hE
      rw [abs_le]
      constructor <;> linarith)
  refine ⟨y, hy, ?_⟩
  have p0 : 0 ≤ B2 * Real.exp ((2 * |r - c| + σ ^ 2) * T) * (X / (J - 1)) ^ 2 := by positivity
  cases kd with
  | linear => dsimp only at hb; linarith
  | quadratic => exact hb

end

/-! ### The smooth payoffs -/

/-- The smooth steps for a strike `K`. -/
noncomputable def stepPayoff (hδ : 0 < δ) {a : ℝ} (ha : a ≤ K + 4 * δ) :
    SmoothPayoff (softStep δ a) (K + 9 * δ) 1 (1 / δ) (1 / δ / δ) (1 / δ / δ / δ) (1 / δ / δ / δ / δ) := by
  rw [show K + 9 * δ = K + 5 * δ + 4 * δ by ring]
  exact softStepPayoff hδ (by linarith)

/-- The smooth step below the payoff of a put. -/
noncomputable def lowStep (δ K : ℝ) : ℝ → ℝ := softStep δ (K - 5 * δ)
/-- The smooth step above it. -/
noncomputable def highStep (δ K : ℝ) : ℝ → ℝ := softStep δ (K + 4 * δ)

theorem lowStep_le (hδ : 0 < δ) {x : ℝ} (hx : 0 ≤ x) : lowStep δ K x ≤ digitalPut K x := by
  unfold lowStep digitalPut
  split_ifs with h
  · exact (softStep_mem hδ _ x).2
  · rw [softStep_zero hδ (by rw [abs_of_nonneg hx]; linarith)]

theorem le_highStep (hδ : 0 < δ) {x : ℝ} (hx : 0 ≤ x) : 1 - digitalCall K x ≤ highStep δ K x := by
  unfold highStep digitalCall
  split_ifs with h
  · rw [sub_self]
    exact (softStep_mem hδ _ x).1
  · rw [softStep_one hδ (by rw [abs_of_nonneg hx]; linarith), sub_zero]

theorem digitalPut_le (x : ℝ) : digitalPut K x ≤ 1 - digitalCall K x := by
  unfold digitalPut digitalCall
  split_ifs with h h' <;> linarith

theorem low_le_high (hδ : 0 < δ) {x : ℝ} (hx : 0 ≤ x) : lowStep δ K x ≤ highStep δ K x :=
  (lowStep_le hδ hx).trans ((digitalPut_le x).trans (le_highStep hδ hx))

theorem lowStep_mem (hδ : 0 < δ) (y : ℝ) : lowStep δ K y ∈ Icc 0 1 := softStep_mem hδ _ y
theorem highStep_mem (hδ : 0 < δ) (y : ℝ) : highStep δ K y ∈ Icc 0 1 := softStep_mem hδ _ y
theorem abs_lowStep (hδ : 0 < δ) (y : ℝ) : |lowStep δ K y| ≤ 1 := by rw [abs_of_nonneg (lowStep_mem hδ y).1]; exact (lowStep_mem hδ y).2
theorem abs_highStep (hδ : 0 < δ) (y : ℝ) : |highStep δ K y| ≤ 1 := by rw [abs_of_nonneg (highStep_mem hδ y).1]; exact (highStep_mem hδ y).2
theorem measurable_lowStep (hδ : 0 < δ) : Measurable (lowStep δ K) := (continuous_softStep hδ _).measurable
theorem measurable_highStep (hδ : 0 < δ) : Measurable (highStep δ K) := (continuous_softStep hδ _).measurable
theorem abs_digitalPut (y : ℝ) : |digitalPut K y| ≤ 1 := by unfold digitalPut; split_ifs <;> norm_num
theorem abs_digitalCall (y : ℝ) : |digitalCall K y| ≤ 1 := by unfold digitalCall; split_ifs <;> norm_num

/-- The values of the two steps are close. -/
theorem step_gap {T x : ℝ} (hδ : 0 < δ) (hK : 0 < K) (hδK : 18 * δ ≤ K) (hσ : 0 < σ) (hT : 0 < T) (hr : 0 ≤ r) (hx : 0 ≤ x) :
    optionValue (highStep δ K) σ r c T x - optionValue (lowStep δ K) σ r c T x ≤ jumpEffect σ T K δ := by
  have hs : 0 < σ * Real.sqrt T := by positivity
  have ha : 0 < K - 9 * δ := by linarith
  refine (value_gap (a := K - 9 * δ) (b := K + 9 * δ) hσ hT hr ha (by linarith) hx (measurable_lowStep hδ) (measurable_highStep hδ) (abs_lowStep hδ) (abs_highStep hδ)
    (fun y => by linarith [(softStep_mem hδ (K + 4 * δ) y).2, (softStep_mem hδ (K - 5 * δ) y).1, show highStep δ K y = softStep δ (K + 4 * δ) y from rfl,
      show lowStep δ K y = softStep δ (K - 5 * δ) y from rfl]) (fun y hy h => ?_)).trans ?_
  · rcases h with h | h
    · rw [lowStep, softStep_one hδ (by rw [abs_of_nonneg hy]; linarith)]
      linarith [(abs_le.mp (abs_highStep (K := K) hδ y)).2]
    · rw [highStep, softStep_zero hδ (by rw [abs_of_nonneg hy]; linarith)]
      linarith [(softStep_mem hδ (K - 5 * δ) y).1, show lowStep δ K y = softStep δ (K - 5 * δ) y from rfl]
  · rw [jumpEffect, div_le_div_iff₀ (by positivity) (by positivity)]
    have : (K + 9 * δ - (K - 9 * δ)) * K ≤ 36 * δ * (K - 9 * δ) := by nlinarith
    nlinarith [mul_le_mul_of_nonneg_right this hs.le]

theorem optionValue_neg (g : ℝ → ℝ) (T x : ℝ) : optionValue (fun y => -g y) σ r c T x = -optionValue g σ r c T x := by
  rw [optionValue, optionValue, integral_neg, mul_neg]

theorem step_value {g : ℝ → ℝ} {T x : ℝ} (hg : ∀ y, g y ∈ Icc 0 1) (hr : 0 ≤ r) (hT : 0 ≤ T) : optionValue g σ r c T x ∈ Icc 0 1 := by
  constructor
  · exact mul_nonneg (Real.exp_pos _).le (integral_nonneg fun z => (hg _).1)
  · exact (le_abs_self _).trans (abs_optionValue_le (fun y => by rw [abs_of_nonneg (hg y).1]; exact (hg y).2) hr hT x)

/-! ### The equations -/

/-- The values of the functions of `BlackScholesPDE` for a digital call: the boundary values of a call. -/
noncomputable def digitalCallProblem (σ r c K T : ℝ) : Problem := { callProblem σ r c K T with initial := digitalCall K }

/-- The values of the functions of `BlackScholesPDE` for a digital put: the boundary values of a put. -/
noncomputable def digitalPutProblem (σ r c K : ℝ) : Problem := { putProblem σ r c K with initial := digitalPut K }

theorem digitalCall_describes {o : OptObj ℝ} {m : Market ℝ} {d : StockData ℝ} (hd : BlackScholes.stock o m = .ok d)
    (ho : o.payoff = .digital .call K) :
    Describes (BlackScholes.pde o m) (digitalCallProblem d.sigma m.r (d.coupon.getD 0) K o.T) := by
  constructor <;> intros <;>
    simp [BlackScholes.pde, BlackScholes.diffusion, BlackScholes.convection, BlackScholes.boundaryLeft, BlackScholes.boundaryRight,
      BlackScholes.strike, hd, ho, digitalCallProblem, callProblem, digitalCall, Payoff.clone, Payoff.payoffType, Payoff.eval1]
  ring

theorem digitalPut_describes {o : OptObj ℝ} {m : Market ℝ} {d : StockData ℝ} (hd : BlackScholes.stock o m = .ok d)
    (ho : o.payoff = .digital .put K) :
    Describes (BlackScholes.pde o m) (digitalPutProblem d.sigma m.r (d.coupon.getD 0) K) := by
  constructor <;> intros <;>
    simp [BlackScholes.pde, BlackScholes.diffusion, BlackScholes.convection, BlackScholes.boundaryLeft, BlackScholes.boundaryRight,
      BlackScholes.strike, hd, ho, digitalPutProblem, putProblem, digitalPut, Payoff.clone, Payoff.payoffType, Payoff.eval1]
  ring

theorem digitalError_le {h k X T S BL BR M : ℝ} (hT : 0 ≤ T) (hk : 0 ≤ k) (hM : M ≤ digitalTimeConstant σ r c K δ + r ^ 2) :
    5 / 4 * (jumpEffect σ T K δ + T * truncation h k (σ ^ 2 / 2 * X ^ 2) (|r - c| * X) M (1 / δ / δ / δ * Real.exp ((3 * |r - c| + 3 * σ ^ 2) * T))
      (1 / δ / δ / δ / δ * Real.exp ((4 * |r - c| + 6 * σ ^ 2) * T)) + boundaryEffect σ r c T S X h BL BR) +
      1 / δ / δ * Real.exp ((2 * |r - c| + σ ^ 2) * T) * h ^ 2 / 2 + jumpEffect σ T K δ ≤ digitalGridError σ r c T K S X h k δ BL BR := by
  have e : truncation h k (σ ^ 2 / 2 * X ^ 2) (|r - c| * X) M (1 / δ / δ / δ * Real.exp ((3 * |r - c| + 3 * σ ^ 2) * T))
      (1 / δ / δ / δ / δ * Real.exp ((4 * |r - c| + 6 * σ ^ 2) * T)) = M / 2 * k + spaceConstant σ r c T X δ / δ * h ^ 2 := by
    rw [truncation, spaceConstant]; ring
  have m : M / 2 * k ≤ (digitalTimeConstant σ r c K δ + r ^ 2) / 2 * k := mul_le_mul_of_nonneg_right (by linarith) hk
  have := mul_le_mul_of_nonneg_left (add_le_add_left m (spaceConstant σ r c T X δ / δ * h ^ 2)) hT
  rw [e, digitalGridError]
  linarith

end Fdm

open Fdm

section
variable (kd : Interp.Kind) (sc : Scheme ℝ) (o : OptObj ℝ) (m : Market ℝ) (d : StockData ℝ) (hd : BlackScholes.stock o m = .ok d) (K : ℝ) (hK : 0 < K)
  (hσ : 0 < d.sigma) (hr : 0 ≤ m.r) (hb : |m.r - d.coupon.getD 0| ≤ d.sigma ^ 2) (hT : 0 < o.T) (X : ℝ) (J N : ℕ) (junk : ℕ → ℝ)
  (hJ : 4 ≤ J) (hm : J ≤ 2 ^ 31) (hN : 2 ≤ N) (hS : 0 < d.price) (hSX : d.price ≤ X) (hh : 2 * (X / (J - 1)) ≤ d.price)
  (hk : (d.sigma ^ 2 + 2 * |m.r - d.coupon.getD 0|) * (o.T / (N - 1)) ≤ 1 / 2)
  (hsc : Stable (o.T / (N - 1)) (d.sigma ^ 2 * (J : ℝ) ^ 2 + m.r) sc) (δ : ℝ) (hδ : 0 < δ) (hδK : 18 * δ ≤ K)
include hd hK hσ hr hb hT hJ hm hN hS hSX hh hk hsc hδ hδK

/-- **C84.** A digital put, by any of the three schemes: the value returned is within `digitalGridError` of the discounted probability of ending below the
strike, although the payoff jumps and the boundary values are those of an ordinary put, so that the value at 0 is `K` instead of
the discount factor. -/
theorem C84_put (ho : o.payoff = .digital .put K) :
    ∃ s, construct sc X J o.T N (BlackScholes.pde o m) junk = .ok s ∧ ∀ fuel, N ≤ fuel → ∃ y,
      (calculatePrice sc kd (BlackScholes.pde o m) (FdmWorld.spot o m) fuel s).1 = .ok y ∧
      |y - Real.exp (-(m.r * o.T)) * (1 - exceedance d.price d.sigma m.r (d.coupon.getD 0) o.T K)| ≤
        digitalGridError d.sigma m.r (d.coupon.getD 0) o.T K d.price X (X / (J - 1)) (o.T / (N - 1)) δ (K + 1) 1 := by
  have hX := hS.trans_le hSX
  have hJ1 : (0 : ℝ) < J - 1 := by
    have : (4 : ℝ) ≤ J := by exact_mod_cast hJ
    linarith
  have hN1 : (0 : ℝ) < N - 1 := by
    have : (2 : ℝ) ≤ N := by exact_mod_cast hN
    linarith
  have v1 : ∀ t, 0 ≤ t → ∀ x, portfolio (lowStep δ K) d.sigma m.r (d.coupon.getD 0) 0 0 t x ∈ Set.Icc 0 1 := fun t ht x => by
    simpa [portfolio] using step_value (σ := d.sigma) (c := d.coupon.getD 0) (x := x) (lowStep_mem (K := K) hδ) hr ht
  have v2 : ∀ t, 0 ≤ t → ∀ x, portfolio (highStep δ K) d.sigma m.r (d.coupon.getD 0) 0 0 t x ∈ Set.Icc 0 1 := fun t ht x => by
    simpa [portfolio] using step_value (σ := d.sigma) (c := d.coupon.getD 0) (x := x) (highStep_mem (K := K) hδ) hr ht
  have pz : ∀ (g : ℝ → ℝ) t x, portfolio g d.sigma m.r (d.coupon.getD 0) 0 0 t x = optionValue g d.sigma m.r (d.coupon.getD 0) t x := fun g t x => by simp [portfolio]
  have gap : ∀ x, 0 ≤ x → optionValue (highStep δ K) d.sigma m.r (d.coupon.getD 0) o.T x - optionValue (lowStep δ K) d.sigma m.r (d.coupon.getD 0) o.T x ≤
      jumpEffect d.sigma o.T K δ := fun x hx => step_gap hδ hK hδK hσ hT hr hx
  have hb1 : ∀ u v : ℝ, u ∈ Set.Icc 0 1 → v ∈ Set.Icc 0 1 → |K - u| ≤ K + 1 ∧ |0 - v| ≤ 1 := fun u v hu hv =>
    ⟨abs_le.mpr ⟨by linarith [hu.2], by linarith [hu.1]⟩, abs_le.mpr ⟨by linarith [hv.2], by linarith [hv.1]⟩⟩
  have hb0 : ∀ u v : ℝ, u ∈ Set.Icc 0 1 → v ∈ Set.Icc 0 1 → |u| ≤ K + 1 ∧ |v| ≤ 1 := fun u v hu hv =>
    ⟨abs_le.mpr ⟨by linarith [hu.1], by linarith [hu.2]⟩, abs_le.mpr ⟨by linarith [hv.1], by linarith [hv.2]⟩⟩
  have hdom : DiffusionDominates (digitalPutProblem d.sigma m.r (d.coupon.getD 0) K) J (X / (J - 1)) := put_dominates (K := K) hb hr J (div_pos hX hJ1).le
  rw [spot_ok hd, ← value_digitalPut hS hσ hT hK]
  obtain ⟨s, hs, h⟩ := sandwich_price (A := 0) (B := 0) (BL := K + 1) (BR := 1) (Γ := jumpEffect d.sigma o.T K δ) (digitalPut_describes hd ho)
    (q := digitalPutProblem d.sigma m.r (d.coupon.getD 0) K) ⟨fun _ _ => rfl, fun _ _ => rfl, fun _ _ => rfl, fun _ _ => rfl⟩ hr hX hT hdom hk
    (stepPayoff (K := K) hδ (a := K - 5 * δ) (by linarith)) (stepPayoff (K := K) hδ (a := K + 4 * δ) le_rfl) (by positivity)
    (fun x hx => by
      change portfolio (lowStep δ K) d.sigma m.r (d.coupon.getD 0) 0 0 0 x ≤ digitalPut K x ∧ digitalPut K x ≤ portfolio (highStep δ K) d.sigma m.r (d.coupon.getD 0) 0 0 0 x
      rw [pz, pz, optionValue_zero, optionValue_zero]
      exact ⟨lowStep_le hδ hx, (digitalPut_le x).trans (le_highStep hδ hx)⟩)
    (fun t ht => hb0 _ _ (v1 t ht.1 0) (v1 t ht.1 X)) (fun t ht => hb0 _ _ (v2 t ht.1 0) (v2 t ht.1 X))
    (fun t _ t' ht' => hb1 _ _ (v1 t' ht'.1 0) (v1 t' ht'.1 X)) (fun t _ t' ht' => hb1 _ _ (v2 t' ht'.1 0) (v2 t' ht'.1 X))
    (fun x hx => by
      change portfolio (highStep δ K) d.sigma m.r (d.coupon.getD 0) 0 0 o.T x - portfolio (lowStep δ K) d.sigma m.r (d.coupon.getD 0) 0 0 o.T x ≤ _
      rw [pz, pz]
      exact gap x hx)
    kd hJ hm hN hsc (by rw [jumpEffect]; positivity) junk hS hSX hh
  refine ⟨s, hs, fun fuel hf => ?_⟩
  obtain ⟨y, hy, h⟩ := h fuel hf
  refine ⟨y, hy, ?_⟩
  change |y - portfolio (lowStep δ K) d.sigma m.r (d.coupon.getD 0) 0 0 o.T d.price| ≤ _ at h
  rw [pz] at h
  refine le_trans ?_ (digitalError_le (h := X / (J - 1)) (k := o.T / (N - 1)) (M := digitalTimeConstant d.sigma m.r (d.coupon.getD 0) K δ + |(0 : ℝ)| * X * (d.coupon.getD 0) ^ 2 *
    Real.exp (|d.coupon.getD 0| * o.T) + |(0 : ℝ)| * m.r ^ 2) hT.le (div_pos hT hN1).le (by rw [abs_zero]; nlinarith [sq_nonneg m.r]))
  have lo := optionValue_mono (σ := d.sigma) (r := m.r) (c := d.coupon.getD 0) (T := o.T) hS.le (measurable_lowStep (K := K) hδ) (measurable_digitalPut K) (abs_lowStep hδ)
    abs_digitalPut (fun y hy => lowStep_le hδ hy)
  have hi := optionValue_mono (σ := d.sigma) (r := m.r) (c := d.coupon.getD 0) (T := o.T) hS.le (measurable_digitalPut K) (measurable_highStep (K := K) hδ) abs_digitalPut
    (abs_highStep hδ) (fun y hy => (digitalPut_le y).trans (le_highStep hδ hy))
  have g := gap d.price hS.le
  refine (abs_sub_le y (optionValue (lowStep δ K) d.sigma m.r (d.coupon.getD 0) o.T d.price) _).trans (add_le_add h ?_)
  rw [abs_le]
  constructor <;> linarith

/-- **C84.** A digital call; the boundary value at `X`, that of an ordinary call, is wrong by about `X`. -/
theorem C84_call (ho : o.payoff = .digital .call K) :
    ∃ s, construct sc X J o.T N (BlackScholes.pde o m) junk = .ok s ∧ ∀ fuel, N ≤ fuel → ∃ y,
      (calculatePrice sc kd (BlackScholes.pde o m) (FdmWorld.spot o m) fuel s).1 = .ok y ∧
      |y - Real.exp (-(m.r * o.T)) * exceedance d.price d.sigma m.r (d.coupon.getD 0) o.T K| ≤
        digitalGridError d.sigma m.r (d.coupon.getD 0) o.T K d.price X (X / (J - 1)) (o.T / (N - 1)) δ 1 (X + (K + 1)) := by
  have hX := hS.trans_le hSX
  have hJ1 : (0 : ℝ) < J - 1 := by
    have : (4 : ℝ) ≤ J := by exact_mod_cast hJ
    linarith
  have hN1 : (0 : ℝ) < N - 1 := by
    have : (2 : ℝ) ≤ N := by exact_mod_cast hN
    linarith
  have pv : ∀ (g : ℝ → ℝ) t x, portfolio (fun y => -g y) d.sigma m.r (d.coupon.getD 0) 0 1 t x =
      Real.exp (-m.r * t) - optionValue g d.sigma m.r (d.coupon.getD 0) t x := fun g t x => by
    rw [portfolio, optionValue_neg]; ring
  have hexp : ∀ t, 0 ≤ t → 0 ≤ Real.exp (-m.r * t) ∧ Real.exp (-m.r * t) ≤ 1 := fun t ht =>
    ⟨(Real.exp_pos _).le, Real.exp_le_one_iff.mpr (by nlinarith [mul_nonneg hr ht])⟩
  have v1 : ∀ t, 0 ≤ t → ∀ x, |portfolio (fun y => -highStep δ K y) d.sigma m.r (d.coupon.getD 0) 0 1 t x| ≤ 1 := fun t ht x => by
    have := step_value (σ := d.sigma) (c := d.coupon.getD 0) (x := x) (highStep_mem (K := K) hδ) hr ht
    rw [pv, abs_le]
    constructor <;> linarith [this.1, this.2, (hexp t ht).1, (hexp t ht).2]
  have v2 : ∀ t, 0 ≤ t → ∀ x, |portfolio (fun y => -lowStep δ K y) d.sigma m.r (d.coupon.getD 0) 0 1 t x| ≤ 1 := fun t ht x => by
    have := step_value (σ := d.sigma) (c := d.coupon.getD 0) (x := x) (lowStep_mem (K := K) hδ) hr ht
    rw [pv, abs_le]
    constructor <;> linarith [this.1, this.2, (hexp t ht).1, (hexp t ht).2]
  have gap : ∀ x, 0 ≤ x → optionValue (highStep δ K) d.sigma m.r (d.coupon.getD 0) o.T x - optionValue (lowStep δ K) d.sigma m.r (d.coupon.getD 0) o.T x ≤
      jumpEffect d.sigma o.T K δ := fun x hx => step_gap hδ hK hδK hσ hT hr hx
  have hb0 : ∀ u v : ℝ, |u| ≤ 1 → |v| ≤ 1 → |u| ≤ 1 ∧ |v| ≤ X + (K + 1) := fun u v hu hv => ⟨hu, hv.trans (by linarith)⟩
  have hb1 : ∀ t ∈ Set.Icc 0 o.T, ∀ u v : ℝ, |u| ≤ 1 → |v| ≤ 1 → |0 - u| ≤ 1 ∧ |X - K * Real.exp (-m.r * (o.T - t)) - v| ≤ X + (K + 1) := fun t ht u v hu hv => by
    obtain ⟨e0, e1⟩ := hexp (o.T - t) (by linarith [ht.2])
    have m0 := mul_nonneg hK.le e0
    have m1 := mul_le_mul_of_nonneg_left e1 hK.le
    rw [zero_sub, abs_neg]
    refine ⟨hu, abs_le.mpr ⟨?_, ?_⟩⟩ <;> linarith [(abs_le.mp hv).1, (abs_le.mp hv).2]
  have hdom : DiffusionDominates (digitalCallProblem d.sigma m.r (d.coupon.getD 0) K o.T) J (X / (J - 1)) :=
    call_dominates (K := K) (T := o.T) hb hr J (div_pos hX hJ1).le
  rw [spot_ok hd, ← value_digitalCall hS hσ hT hK]
  obtain ⟨s, hs, h⟩ := sandwich_price (A := 0) (B := 1) (BL := 1) (BR := X + (K + 1)) (Γ := jumpEffect d.sigma o.T K δ) (digitalCall_describes hd ho)
    (q := digitalCallProblem d.sigma m.r (d.coupon.getD 0) K o.T) ⟨fun _ _ => rfl, fun _ _ => rfl, fun _ _ => rfl, fun _ _ => rfl⟩ hr hX hT hdom hk
    (negPayoff (stepPayoff (K := K) hδ (a := K + 4 * δ) le_rfl)) (negPayoff (stepPayoff (K := K) hδ (a := K - 5 * δ) (by linarith))) (by positivity)
    (fun x hx => by
      change portfolio (fun y => -highStep δ K y) d.sigma m.r (d.coupon.getD 0) 0 1 0 x ≤ digitalCall K x ∧
        digitalCall K x ≤ portfolio (fun y => -lowStep δ K y) d.sigma m.r (d.coupon.getD 0) 0 1 0 x
      rw [pv, pv, optionValue_zero, optionValue_zero, mul_zero, Real.exp_zero]
      have a := le_highStep (K := K) hδ hx
      have b := (lowStep_le (K := K) hδ hx).trans (digitalPut_le x)
      exact ⟨by linarith, by linarith⟩)
    (fun t ht => hb0 _ _ (v1 t ht.1 0) (v1 t ht.1 X)) (fun t ht => hb0 _ _ (v2 t ht.1 0) (v2 t ht.1 X))
    (fun t ht t' ht' => hb1 t ht _ _ (v1 t' ht'.1 0) (v1 t' ht'.1 X)) (fun t ht t' ht' => hb1 t ht _ _ (v2 t' ht'.1 0) (v2 t' ht'.1 X))
    (fun x hx => by
      change portfolio (fun y => -lowStep δ K y) d.sigma m.r (d.coupon.getD 0) 0 1 o.T x - portfolio (fun y => -highStep δ K y) d.sigma m.r (d.coupon.getD 0) 0 1 o.T x ≤ _
      rw [pv, pv]
      linarith [gap x hx])
    kd hJ hm hN hsc (by rw [jumpEffect]; positivity) junk hS hSX hh
  refine ⟨s, hs, fun fuel hf => ?_⟩
  obtain ⟨y, hy, h⟩ := h fuel hf
  refine ⟨y, hy, ?_⟩
  change |y - portfolio (fun y => -highStep δ K y) d.sigma m.r (d.coupon.getD 0) 0 1 o.T d.price| ≤ _ at h
  refine le_trans ?_ (digitalError_le (h := X / (J - 1)) (k := o.T / (N - 1)) (M := digitalTimeConstant d.sigma m.r (d.coupon.getD 0) K δ + |(0 : ℝ)| * X * (d.coupon.getD 0) ^ 2 *
    Real.exp (|d.coupon.getD 0| * o.T) + |(1 : ℝ)| * m.r ^ 2) hT.le (div_pos hT hN1).le (by rw [abs_zero, abs_one]; linarith))
  have one : optionValue (fun _ => 1) d.sigma m.r (d.coupon.getD 0) o.T d.price = Real.exp (-m.r * o.T) := by simp [optionValue]
  have mc : Measurable fun y => 1 - digitalCall K y := measurable_const.sub (measurable_digitalCall K)
  have bc : ∀ y, |1 - digitalCall K y| ≤ 1 := fun y => by unfold digitalCall; split_ifs <;> norm_num
  have sp : optionValue (fun y => 1 - digitalCall K y) d.sigma m.r (d.coupon.getD 0) o.T d.price =
      Real.exp (-m.r * o.T) - optionValue (digitalCall K) d.sigma m.r (d.coupon.getD 0) o.T d.price := by
    have i : Integrable (fun z => digitalCall K (terminalPrice d.sigma m.r (d.coupon.getD 0) o.T d.price z)) (gaussianReal 0 1) :=
      Integrable.of_bound ((measurable_digitalCall K).comp (continuous_terminalPrice d.price).measurable).aestronglyMeasurable 1 (ae_of_all _ fun z => abs_digitalCall _)
    rw [optionValue, integral_sub (integrable_const _) i, optionValue]
    simp [mul_sub]
  have lo := optionValue_mono (σ := d.sigma) (r := m.r) (c := d.coupon.getD 0) (T := o.T) hS.le (measurable_lowStep (K := K) hδ) mc (abs_lowStep hδ)
    bc (fun y hy => (lowStep_le hδ hy).trans (digitalPut_le y))
  have hi := optionValue_mono (σ := d.sigma) (r := m.r) (c := d.coupon.getD 0) (T := o.T) hS.le mc (measurable_highStep (K := K) hδ) bc
    (abs_highStep hδ) (fun y hy => le_highStep hδ hy)
  have g := gap d.price hS.le
  refine (abs_sub_le y (portfolio (fun y => -highStep δ K y) d.sigma m.r (d.coupon.getD 0) 0 1 o.T d.price) _).trans (add_le_add h ?_)
  rw [pv, abs_le]
  rw [sp] at lo hi
  constructor <;> linarith

end

namespace Fdm

theorem digitalGridError_eq {σ r c T K S X h k δ BL BR : ℝ} : digitalGridError σ r c T K S X h k δ BL BR =
    9 / 4 * jumpEffect σ T K δ + 5 / 4 * (Real.exp (2 * (σ ^ 2 + 2 * |r - c|) * T) * (BR * (2 * S / X) ^ 2)) +
    (5 / 4 * (T * ((digitalTimeConstant σ r c K δ + r ^ 2) / 2 * k + spaceConstant σ r c T X δ / δ * h ^ 2) +
      Real.exp (2 * (σ ^ 2 + 2 * |r - c|) * T) * (BL * (2 * h / S))) + 1 / δ * (1 / δ * Real.exp ((2 * |r - c| + σ ^ 2) * T)) * h ^ 2 / 2) := by
  rw [digitalGridError, boundaryEffect]
  ring

/-- The bounds become small. -/
theorem digitalGridError_small {σ r c T K S BL a b : ℝ} (hσ : 0 < σ) (hr : 0 ≤ r) (hK : 0 < K) (hT : 0 < T) (hS : 0 < S) (hBL : 0 ≤ BL) (ha : 0 ≤ a) (hb : 0 ≤ b)
    {ε : ℝ} (hε : 0 < ε) :
    ∃ δ > 0, 18 * δ ≤ K ∧ ∃ X₀, ∀ X, X₀ ≤ X → S ≤ X ∧ ∃ η > 0, ∀ h k, 0 < h → h ≤ η → k ≤ η →
      2 * h ≤ S ∧ (σ ^ 2 + 2 * |r - c|) * k ≤ 1 / 2 ∧ digitalGridError σ r c T K S X h k δ BL (X * a + b) ≤ ε := by
  obtain ⟨G, hG⟩ : ∃ G, G = Real.exp (2 * (σ ^ 2 + 2 * |r - c|) * T) := ⟨_, rfl⟩
  have hG0 : 0 < G := hG ▸ Real.exp_pos _
  have hw : 0 < K * (σ * Real.sqrt T) := by positivity
  obtain ⟨δ, hδd⟩ : ∃ δ, δ = min (K / 18) (ε * (K * (σ * Real.sqrt T)) / 243) := ⟨_, rfl⟩
  have hδ0 : 0 < δ := by rw [hδd]; positivity
  have hδ1 : 18 * δ ≤ K := by linarith [hδd ▸ min_le_left (K / 18) (ε * (K * (σ * Real.sqrt T)) / 243)]
  have hj : 9 / 4 * jumpEffect σ T K δ ≤ ε / 3 := by
    have h := hδd ▸ min_le_right (K / 18) (ε * (K * (σ * Real.sqrt T)) / 243)
    rw [jumpEffect, mul_div_assoc', div_le_iff₀ hw]
    linarith
  refine ⟨δ, hδ0, hδ1, max (max 1 S) (15 * G * S ^ 2 * (a + b) / ε), fun X hX => ?_⟩
  have hX1 : 1 ≤ X := (le_max_left _ _).trans ((le_max_left _ _).trans hX)
  have hXS : S ≤ X := (le_max_right _ _).trans ((le_max_left _ _).trans hX)
  have hXε : 15 * G * S ^ 2 * (a + b) / ε ≤ X := (le_max_right _ _).trans hX
  refine ⟨hXS, ?_⟩
  have hM0 : 0 ≤ digitalTimeConstant σ r c K δ + r ^ 2 := by rw [digitalTimeConstant, timeBound]; positivity
  have hQ0 : 0 ≤ spaceConstant σ r c T X δ / δ := by rw [spaceConstant]; positivity
  simp only [digitalGridError_eq, ← hG]
  generalize spaceConstant σ r c T X δ / δ = Q at *
  generalize digitalTimeConstant σ r c K δ + r ^ 2 = m at *
  generalize jumpEffect σ T K δ = jump at *
  have hL0 : 0 < 1 / δ * Real.exp ((2 * |r - c| + σ ^ 2) * T) := by positivity
  generalize 1 / δ * Real.exp ((2 * |r - c| + σ ^ 2) * T) = L at *
  have hκ0 : 0 ≤ σ ^ 2 + 2 * |r - c| := by positivity
  generalize σ ^ 2 + 2 * |r - c| = κ at *
  have hW0 : 0 ≤ 5 / 4 * (T * (m / 2 + Q) + G * (BL * (2 / S))) + 1 / δ * L / 2 := by positivity
  obtain ⟨W, hW⟩ : ∃ W, W = 5 / 4 * (T * (m / 2 + Q) + G * (BL * (2 / S))) + 1 / δ * L / 2 := ⟨_, rfl⟩
  rw [← hW] at hW0
  refine ⟨min (min 1 (S / 2)) (min (1 / (2 * (κ + 1))) (ε / (3 * (W + 1)))), by positivity, fun h k h0 hh hk => ?_⟩
  have hh1 : h ≤ 1 := hh.trans ((min_le_left _ _).trans (min_le_left _ _))
  have hhS : h ≤ S / 2 := hh.trans ((min_le_left _ _).trans (min_le_right _ _))
  have hkκ : k ≤ 1 / (2 * (κ + 1)) := hk.trans ((min_le_right _ _).trans (min_le_left _ _))
  have hhW : h ≤ ε / (3 * (W + 1)) := hh.trans ((min_le_right _ _).trans (min_le_right _ _))
  have hkW : k ≤ ε / (3 * (W + 1)) := hk.trans ((min_le_right _ _).trans (min_le_right _ _))
  refine ⟨by linarith, ?_, ?_⟩
  · refine (mul_le_mul_of_nonneg_left hkκ hκ0).trans ?_
    rw [mul_one_div, div_le_div_iff₀ (by positivity) (by norm_num)]
    linarith
  · have near := near_small hT hM0 hQ0 hG0 hBL hS hL0 hδ0 h0 hh1 hhW hkW
    rw [← hW] at near
    have fin : W * (ε / (3 * (W + 1))) ≤ ε / 3 := by
      rw [mul_div_assoc', div_le_div_iff₀ (by positivity) (by norm_num)]
      nlinarith
    have far := far_small hG0 hS hX1 ha hb hε hXε
    linarith

end Fdm

section
variable (kd : Interp.Kind) (o : OptObj ℝ) (m : Market ℝ) (d : StockData ℝ) (hd : BlackScholes.stock o m = .ok d) (K : ℝ) (hK : 0 < K)
  (hσ : 0 < d.sigma) (hr : 0 ≤ m.r) (hb : |m.r - d.coupon.getD 0| ≤ d.sigma ^ 2) (hT : 0 < o.T) (hS : 0 < d.price)
include hd hK hσ hr hb hT hS

/-- **C84.** Hence the prices of digital puts converge as the domain grows and the steps become small. -/
theorem C84_putConverges (ho : o.payoff = .digital .put K) (ε : ℝ) (hε : 0 < ε) :
    ∃ X₀ : ℝ, ∀ X : ℝ, X₀ ≤ X → ∃ η : ℝ, 0 < η ∧ ∀ (J N : ℕ) (junk : ℕ → ℝ) (sc : Scheme ℝ), 4 ≤ J → J ≤ 2 ^ 31 → 2 ≤ N → X / (J - 1) ≤ η → o.T / (N - 1) ≤ η →
      Stable (o.T / (N - 1)) (d.sigma ^ 2 * (J : ℝ) ^ 2 + m.r) sc →
      ∃ s, construct sc X J o.T N (BlackScholes.pde o m) junk = .ok s ∧ ∀ fuel, N ≤ fuel → ∃ y,
        (calculatePrice sc kd (BlackScholes.pde o m) (FdmWorld.spot o m) fuel s).1 = .ok y ∧
        |y - Real.exp (-(m.r * o.T)) * (1 - exceedance d.price d.sigma m.r (d.coupon.getD 0) o.T K)| ≤ ε := by
  obtain ⟨δ, hδ, hδK, X₀, h⟩ := digitalGridError_small (c := d.coupon.getD 0) (BL := K + 1) (a := 0) (b := 1) hσ hr hK hT hS (by positivity) le_rfl zero_le_one hε
  refine ⟨X₀, fun X hX => ?_⟩
  obtain ⟨hSX, η, hη, h⟩ := h X hX
  refine ⟨η, hη, fun J N junk sc hJ hm hN h1 h2 hsc => ?_⟩
  have hJ1 : (0 : ℝ) < J - 1 := by
    have : (4 : ℝ) ≤ J := by exact_mod_cast hJ
    linarith
  obtain ⟨a, b, e⟩ := h (X / (J - 1)) (o.T / (N - 1)) (div_pos (hS.trans_le hSX) hJ1) h1 h2
  obtain ⟨s, hs, hp⟩ := C84_put kd sc o m d hd K hK hσ hr hb hT X J N junk hJ hm hN hS hSX a b hsc δ hδ hδK ho
  refine ⟨s, hs, fun fuel hf => ?_⟩
  obtain ⟨y, hy, hle⟩ := hp fuel hf
  rw [mul_zero, zero_add] at e
  exact ⟨y, hy, hle.trans e⟩

/-- **C84.** The same for digital calls. -/
theorem C84_callConverges (ho : o.payoff = .digital .call K) (ε : ℝ) (hε : 0 < ε) :
    ∃ X₀ : ℝ, ∀ X : ℝ, X₀ ≤ X → ∃ η : ℝ, 0 < η ∧ ∀ (J N : ℕ) (junk : ℕ → ℝ) (sc : Scheme ℝ), 4 ≤ J → J ≤ 2 ^ 31 → 2 ≤ N → X / (J - 1) ≤ η → o.T / (N - 1) ≤ η →
      Stable (o.T / (N - 1)) (d.sigma ^ 2 * (J : ℝ) ^ 2 + m.r) sc →
      ∃ s, construct sc X J o.T N (BlackScholes.pde o m) junk = .ok s ∧ ∀ fuel, N ≤ fuel → ∃ y,
        (calculatePrice sc kd (BlackScholes.pde o m) (FdmWorld.spot o m) fuel s).1 = .ok y ∧
        |y - Real.exp (-(m.r * o.T)) * exceedance d.price d.sigma m.r (d.coupon.getD 0) o.T K| ≤ ε := by
  obtain ⟨δ, hδ, hδK, X₀, h⟩ := digitalGridError_small (c := d.coupon.getD 0) (BL := 1) (a := 1) (b := K + 1) hσ hr hK hT hS zero_le_one zero_le_one (by positivity) hε
  refine ⟨X₀, fun X hX => ?_⟩
  obtain ⟨hSX, η, hη, h⟩ := h X hX
  refine ⟨η, hη, fun J N junk sc hJ hm hN h1 h2 hsc => ?_⟩
  have hJ1 : (0 : ℝ) < J - 1 := by
    have : (4 : ℝ) ≤ J := by exact_mod_cast hJ
    linarith
  obtain ⟨a, b, e⟩ := h (X / (J - 1)) (o.T / (N - 1)) (div_pos (hS.trans_le hSX) hJ1) h1 h2
  obtain ⟨s, hs, hp⟩ := C84_call kd sc o m d hd K hK hσ hr hb hT X J N junk hJ hm hN hS hSX a b hsc δ hδ hδK ho
  refine ⟨s, hs, fun fuel hf => ?_⟩
  obtain ⟨y, hy, hle⟩ := hp fuel hf
  rw [mul_one] at e
  exact ⟨y, hy, hle.trans e⟩

end

/-! ### The boundary values of digital options -/

/-- **C60 fails.** The left boundary value of a digital put is the strike, which is not the limit of the value of the option unless it is at most 1. -/
theorem C60_digitalPut_fails (o : OptObj ℝ) (m : Market ℝ) (d : StockData ℝ) (K : ℝ) (hd : BlackScholes.stock o m = .ok d)
    (ho : o.payoff = .digital .put K) (hK : 1 < K) (hr : 0 ≤ m.r) (t : ℝ) (ht : 0 ≤ t) (g : ℝ) (hg : (BlackScholes.pde o m).boundaryLeft t 0 = .ok g) :
    ¬ LeftAsymptotic (fun x => if x < K then 1 else 0) d.sigma m.r (d.coupon.getD 0) t g := by
  rw [(digitalPut_describes hd ho).boundaryLeft] at hg
  have e : g = K := (Res.ok.inj hg).symm
  intro h
  have := le_of_tendsto h (Filter.Eventually.of_forall fun x => (step_value (σ := d.sigma) (c := d.coupon.getD 0) (x := x) (g := digitalPut K)
    (fun y => by unfold digitalPut; split_ifs <;> norm_num) hr ht).2)
  linarith

/-- **C60 fails.** The right boundary value of a digital call grows with the price of the stock; the value of the option is at most 1. -/
theorem C60_digitalCall_fails (o : OptObj ℝ) (m : Market ℝ) (d : StockData ℝ) (K : ℝ) (hd : BlackScholes.stock o m = .ok d)
    (ho : o.payoff = .digital .call K) (hr : 0 ≤ m.r) (t : ℝ) (ht : 0 ≤ t) (g : ℝ → ℝ) (hg : ∀ x, (BlackScholes.pde o m).boundaryRight t x = .ok (g x)) :
    Filter.Tendsto (fun S => g S - optionValue (fun x => if K < x then 1 else 0) d.sigma m.r (d.coupon.getD 0) t S) Filter.atTop Filter.atTop := by
  have e : ∀ x, g x = x - K * Real.exp (-m.r * (o.T - t)) := fun x => by
    have := hg x
    rw [(digitalCall_describes hd ho).boundaryRight] at this
    exact (Res.ok.inj this).symm
  refine Filter.tendsto_atTop_mono (fun S => ?_) (Filter.tendsto_atTop_add_const_right Filter.atTop (-(K * Real.exp (-m.r * (o.T - t))) - 1) Filter.tendsto_id)
  have := (step_value (σ := d.sigma) (c := d.coupon.getD 0) (x := S) (g := digitalCall K) (fun y => by unfold digitalCall; split_ifs <;> norm_num) hr ht).2
  change S + (-(K * Real.exp (-m.r * (o.T - t))) - 1) ≤ g S - optionValue (digitalCall K) d.sigma m.r (d.coupon.getD 0) t S
  rw [e]
  linarith

example : ¬ LeftAsymptotic (fun x => if x < 100 then 1 else 0) 1 1 0 (1 / 2) 100 :=
  C60_digitalPut_fails ⟨.european, "A", .digital .put 100, 1, none⟩ exampleMarket ⟨1, 1, none⟩ 100 rfl rfl (by norm_num) zero_le_one (1 / 2) (by norm_num) 100
    (by rw [(digitalPut_describes (K := 100) (d := ⟨1, 1, none⟩) rfl rfl).boundaryLeft]; rfl)

example : Filter.Tendsto (fun S => (S - 1 * Real.exp (-1 * (1 - 1 / 2))) - optionValue (fun x => if 1 < x then 1 else 0) 1 1 0 (1 / 2) S) Filter.atTop Filter.atTop :=
  C60_digitalCall_fails ⟨.european, "A", .digital .call 1, 1, none⟩ exampleMarket ⟨1, 1, none⟩ 1 rfl rfl zero_le_one (1 / 2) (by norm_num) _ fun x => by
    rw [(digitalCall_describes (K := 1) (d := ⟨1, 1, none⟩) rfl rfl).boundaryRight]; rfl

/-! ### Cases -/

/-- A digital option for the examples: strike 1, maturity 1. -/
def digitalExample (ty : PayoffType) : OptObj ℝ := ⟨.european, "A", .digital ty 1, 1, none⟩

/-- `sigma = 1`, `r = 1`, spot 1; 101 nodes on `[0, 10]`, 6 steps of implicit Euler. -/
example : ∃ s, construct (.implicit thomas) 10 101 1 7 (BlackScholes.pde (digitalExample .put) exampleMarket) (fun _ => 0) = .ok s ∧ ∀ fuel, 7 ≤ fuel → ∃ y,
      (calculatePrice (.implicit thomas) .quadratic (BlackScholes.pde (digitalExample .put) exampleMarket) (FdmWorld.spot (digitalExample .put) exampleMarket) fuel s).1 = .ok y ∧
      |y - Real.exp (-(1 * 1)) * (1 - exceedance 1 1 1 0 1 1)| ≤ digitalGridError 1 1 0 1 1 1 10 (10 / ((101 : ℕ) - 1)) (1 / ((7 : ℕ) - 1)) (1 / 18) (1 + 1) 1 :=
  C84_put .quadratic _ (digitalExample .put) exampleMarket ⟨1, 1, none⟩ rfl 1 one_pos one_pos zero_le_one (by norm_num [exampleMarket]) one_pos 10 101 7 _
    (by norm_num) (by norm_num) (by norm_num) one_pos (by norm_num) (by norm_num) (by norm_num [digitalExample, exampleMarket]) .implicit (1 / 18) (by norm_num)
    (by norm_num) rfl

/-- Explicit Euler and Crank-Nicolson with 21 nodes and 1000 steps. -/
example : ∃ s, construct .explicit 10 21 1 1001 (BlackScholes.pde (digitalExample .call) exampleMarket) (fun _ => 0) = .ok s ∧ ∀ fuel, 1001 ≤ fuel → ∃ y,
      (calculatePrice .explicit .linear (BlackScholes.pde (digitalExample .call) exampleMarket) (FdmWorld.spot (digitalExample .call) exampleMarket) fuel s).1 = .ok y ∧
      |y - Real.exp (-(1 * 1)) * exceedance 1 1 1 0 1 1| ≤ digitalGridError 1 1 0 1 1 1 10 (10 / ((21 : ℕ) - 1)) (1 / ((1001 : ℕ) - 1)) (1 / 18) 1 (10 + (1 + 1)) :=
  C84_call .linear _ (digitalExample .call) exampleMarket ⟨1, 1, none⟩ rfl 1 one_pos one_pos zero_le_one (by norm_num [exampleMarket]) one_pos 10 21 1001 _
    (by norm_num) (by norm_num) (by norm_num) one_pos (by norm_num) (by norm_num) (by norm_num [digitalExample, exampleMarket])
    (.explicit (by norm_num [digitalExample, exampleMarket])) (1 / 18) (by norm_num) (by norm_num) rfl

example : ∃ s, construct (.crankNicolson thomas) 10 21 1 1001 (BlackScholes.pde (digitalExample .call) exampleMarket) (fun _ => 0) = .ok s ∧ ∀ fuel, 1001 ≤ fuel → ∃ y,
      (calculatePrice (.crankNicolson thomas) .linear (BlackScholes.pde (digitalExample .call) exampleMarket) (FdmWorld.spot (digitalExample .call) exampleMarket) fuel s).1 = .ok y ∧
      |y - Real.exp (-(1 * 1)) * exceedance 1 1 1 0 1 1| ≤ digitalGridError 1 1 0 1 1 1 10 (10 / ((21 : ℕ) - 1)) (1 / ((1001 : ℕ) - 1)) (1 / 18) 1 (10 + (1 + 1)) :=
  C84_call .linear _ (digitalExample .call) exampleMarket ⟨1, 1, none⟩ rfl 1 one_pos one_pos zero_le_one (by norm_num [exampleMarket]) one_pos 10 21 1001 _
    (by norm_num) (by norm_num) (by norm_num) one_pos (by norm_num) (by norm_num) (by norm_num [digitalExample, exampleMarket])
    (.crankNicolson (by norm_num [digitalExample, exampleMarket])) (1 / 18) (by norm_num) (by norm_num) rfl

/-- The hypotheses of the limit theorems. -/
example : ∃ X₀ : ℝ, ∀ X : ℝ, X₀ ≤ X → ∃ η : ℝ, 0 < η ∧ ∀ (J N : ℕ) (junk : ℕ → ℝ) (sc : Scheme ℝ), 4 ≤ J → J ≤ 2 ^ 31 → 2 ≤ N → X / (J - 1) ≤ η → 1 / (N - 1) ≤ η →
      Stable (1 / (N - 1)) (1 ^ 2 * (J : ℝ) ^ 2 + 1) sc →
      ∃ s, construct sc X J 1 N (BlackScholes.pde (digitalExample .call) exampleMarket) junk = .ok s ∧ ∀ fuel, N ≤ fuel → ∃ y,
        (calculatePrice sc .linear (BlackScholes.pde (digitalExample .call) exampleMarket) (FdmWorld.spot (digitalExample .call) exampleMarket) fuel s).1 = .ok y ∧
        |y - Real.exp (-(1 * 1)) * exceedance 1 1 1 0 1 1| ≤ 1 / 10 :=
  C84_callConverges .linear (digitalExample .call) exampleMarket ⟨1, 1, none⟩ rfl 1 one_pos one_pos zero_le_one (by norm_num [exampleMarket]) one_pos one_pos rfl _ (by norm_num)

example : ∃ X₀ : ℝ, ∀ X : ℝ, X₀ ≤ X → ∃ η : ℝ, 0 < η ∧ ∀ (J N : ℕ) (junk : ℕ → ℝ) (sc : Scheme ℝ), 4 ≤ J → J ≤ 2 ^ 31 → 2 ≤ N → X / (J - 1) ≤ η → 1 / (N - 1) ≤ η →
      Stable (1 / (N - 1)) (1 ^ 2 * (J : ℝ) ^ 2 + 1) sc →
      ∃ s, construct sc X J 1 N (BlackScholes.pde (digitalExample .put) exampleMarket) junk = .ok s ∧ ∀ fuel, N ≤ fuel → ∃ y,
        (calculatePrice sc .linear (BlackScholes.pde (digitalExample .put) exampleMarket) (FdmWorld.spot (digitalExample .put) exampleMarket) fuel s).1 = .ok y ∧
        |y - Real.exp (-(1 * 1)) * (1 - exceedance 1 1 1 0 1 1)| ≤ 1 / 10 :=
  C84_putConverges .linear (digitalExample .put) exampleMarket ⟨1, 1, none⟩ rfl 1 one_pos one_pos zero_le_one (by norm_num [exampleMarket]) one_pos one_pos rfl _ (by norm_num)

end Verif
