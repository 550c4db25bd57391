import Verif.Lemmas.MonteCarlo
import Verif.Model.StockModel

/-!
# C19, C20, C23: barrier options and the shape of Monte Carlo prices
-/

namespace Verif
open Spec

section
variable {F σ : Type} [Fl F] [Add F] [Sub F] [Mul F] [Div F] [Neg F]

omit [Add F] [Sub F] [Mul F] [Div F] [Neg F] in
theorem any_touched_iff (B : F) (d : BarrierDirection) (S : List F) :
    S.any (OptionModel.knockInIsActive B d) = true ↔ Touched B d S := by
  simp only [List.any_eq_true, Touched, OptionModel.knockInIsActive, OptionModel.barrierTouched]
  cases d <;> simp

omit [Add F] [Sub F] [Mul F] [Div F] [Neg F] in
theorem any_notActive_iff (B : F) (d : BarrierDirection) (S : List F) :
    S.any (fun x => !(OptionModel.knockOutIsActive B d x)) = true ↔ Touched B d S := by
  rw [← any_touched_iff]
  simp [OptionModel.knockOutIsActive, OptionModel.knockInIsActive]

theorem barrierPath_knockIn {pay : F → Res F} {B : F} {d : BarrierDirection} {S : List F} {v : F}
    (hM : S.length ≤ INT_MAX) (hv : KnockInValue pay B d S v) :
    MC.barrierPath .knockIn (OptionModel.knockInIsActive B d) pay S.length S = .ok v := by
  obtain ⟨h, h1, h2⟩ := hv
  unfold MC.barrierPath
  rw [MC.scan_knockIn _ _ hM, Res.bind_ok, MC.vget_last h, Res.bind_ok]
  by_cases ht : Touched B d S
  · rw [(any_touched_iff B d S).mpr ht]
    simpa [MC.KnockKind.payoff] using h1 ht
  · have : S.any (OptionModel.knockInIsActive B d) = false := by
      rw [← Bool.not_eq_true, any_touched_iff]; exact ht
    rw [this, h2 ht]
    simp [MC.KnockKind.payoff]

theorem barrierPath_knockOut {pay : F → Res F} {B : F} {d : BarrierDirection} {S : List F} {v : F}
    (hM : S.length ≤ INT_MAX) (hv : KnockOutValue pay B d S v) :
    MC.barrierPath .knockOut (OptionModel.knockOutIsActive B d) pay S.length S = .ok v := by
  obtain ⟨h, h1, h2⟩ := hv
  unfold MC.barrierPath
  rw [MC.scan_knockOut _ S _ 0 (by omega) hM, Res.bind_ok, MC.vget_last h, Res.bind_ok,
    List.drop_zero]
  by_cases ht : Touched B d S
  · rw [(any_notActive_iff B d S).mpr ht, h2 ht]
    simp [MC.KnockKind.payoff]
  · have : S.any (fun x => !(OptionModel.knockOutIsActive B d x)) = false := by
      rw [← Bool.not_eq_true, any_notActive_iff]; exact ht
    rw [this]
    simpa [MC.KnockKind.payoff] using h1 ht

/-- **C20.** For every payoff, barrier, direction and set of simulated paths (in any arithmetic,
NaN and infinities included) the knock-in pricer returns the discounted mean of the values
`KnockInValue`: the payoff of the last price on the paths on which some monitored price is at or
beyond the barrier, and 0 on the others. -/
theorem C20_knockIn (src : PathSource σ F) (getR : Eff σ F) (pay : F → Res F) (B : F)
    (d : BarrierDirection) {T r : F} {s s' : σ} {paths : List (List F)} {vals : List F}
    (hR : getR s = (.ok r, s)) (hD : Draws (src.simulatePrices T) s paths s')
    (hN : paths.length ≤ INT_MAX) (hsteps : src.steps ≤ INT_MAX)
    (hlen : ∀ S ∈ paths, S.length = src.steps)
    (hv : List.Forall₂ (KnockInValue pay B d) paths vals) :
    MC.barrier .knockIn src getR (OptionModel.knockInIsActive B d) pay T paths.length s =
      (.ok (vals.foldl (· + ·) (lit 0) / lit (paths.length : ℚ) * Fl.exp (-r * T)), s') := by
  rw [MC.barrier_eq]
  refine MC.intPricer_ok hN hR hD ?_
  clear hD hN
  induction hv with
  | nil => exact .nil
  | cons h _ ih =>
    refine .cons ?_ (ih (fun S hS => hlen S (List.mem_cons_of_mem _ hS)))
    have := hlen _ (List.mem_cons_self ..)
    rw [← this]
    exact barrierPath_knockIn (by omega) h

/-- **C20.** The knock-out pricer, which leaves the monitoring loop at the first price beyond the
barrier, returns the discounted mean of the values `KnockOutValue`: 0 on the paths on which some
monitored price is at or beyond the barrier, the payoff of the last price on the others. -/
theorem C20_knockOut (src : PathSource σ F) (getR : Eff σ F) (pay : F → Res F) (B : F)
    (d : BarrierDirection) {T r : F} {s s' : σ} {paths : List (List F)} {vals : List F}
    (hR : getR s = (.ok r, s)) (hD : Draws (src.simulatePrices T) s paths s')
    (hN : paths.length ≤ INT_MAX) (hsteps : src.steps ≤ INT_MAX)
    (hlen : ∀ S ∈ paths, S.length = src.steps)
    (hv : List.Forall₂ (KnockOutValue pay B d) paths vals) :
    MC.barrier .knockOut src getR (OptionModel.knockOutIsActive B d) pay T paths.length s =
      (.ok (vals.foldl (· + ·) (lit 0) / lit (paths.length : ℚ) * Fl.exp (-r * T)), s') := by
  rw [MC.barrier_eq]
  refine MC.intPricer_ok hN hR hD ?_
  clear hD hN
  induction hv with
  | nil => exact .nil
  | cons h _ ih =>
    refine .cons ?_ (ih (fun S hS => hlen S (List.mem_cons_of_mem _ hS)))
    have := hlen _ (List.mem_cons_self ..)
    rw [← this]
    exact barrierPath_knockOut (by omega) h

end

/-- A path source that replays a fixed list of paths (for the examples). -/
def replay (steps : Nat) {F : Type} : PathSource (List (List F)) F where
  steps := steps
  simulatePrices _ := fun s => match s with
    | [] => (.ub, [])
    | p :: ps => (.ok p, ps)
  simulatePriceAtMaturity _ := fun s => match s with
    | [] => (.ub, [])
    | p :: ps => (vback p, ps)
  simulatePriceBackward _ _ _ := Eff.lift .ub

theorem replay_draws {F : Type} (steps : Nat) (T : F) (ps : List (List F)) :
    Draws ((replay steps).simulatePrices T) ps ps [] := by
  induction ps with
  | nil => exact .nil _
  | cons p ps ih => exact .cons rfl ih

/-- Two paths, up barrier 3: the first touches it (at the barrier, in the middle), the second does
not; the hypotheses of `C20_knockIn` and `C20_knockOut` hold. -/
example : MC.barrier .knockIn (replay 3) (Eff.lift (.ok (0 : ℝ)))
      (OptionModel.knockInIsActive 3 .up) (Payoff.vanilla .call (1 : ℝ)).eval1 1 2
      [[1, 3, 2], [2, 1, 2.5]] = (.ok (([1, 0].foldl (· + ·) (lit 0) : ℝ) / lit 2 *
        Fl.exp (-0 * 1)), []) :=
  C20_knockIn (replay 3) _ _ 3 .up rfl (replay_draws 3 1 [[1, 3, 2], [2, 1, 2.5]])
    (by simp [INT_MAX]) (by simp [replay, INT_MAX]) (by simp [replay])
    (.cons ⟨by simp, by intro _; simp [Payoff.eval1]; norm_num,
        by intro h; exact absurd ⟨3, by simp, by simp⟩ h⟩
      (.cons ⟨by simp, by
          rintro ⟨x, hx, h⟩; simp at hx h; rcases hx with rfl | rfl | rfl <;> norm_num at h,
        by intro _; simp⟩ .nil))

example : MC.barrier .knockOut (replay 3) (Eff.lift (.ok (0 : ℝ)))
      (OptionModel.knockOutIsActive 3 .up) (Payoff.vanilla .call (1 : ℝ)).eval1 1 2
      [[1, 3, 2], [2, 1, 2.5]] = (.ok (([0, 1.5].foldl (· + ·) (lit 0) : ℝ) / lit 2 *
        Fl.exp (-0 * 1)), []) :=
  C20_knockOut (replay 3) _ _ 3 .up rfl (replay_draws 3 1 [[1, 3, 2], [2, 1, 2.5]])
    (by simp [INT_MAX]) (by simp [replay, INT_MAX]) (by simp [replay])
    (.cons ⟨by simp, by intro h; exact absurd ⟨3, by simp, by simp⟩ h, by intro _; simp⟩
      (.cons ⟨by simp, by intro _; simp [Payoff.eval1]; norm_num, by
          rintro ⟨x, hx, h⟩; simp at hx h; rcases hx with rfl | rfl | rfl <;> norm_num at h⟩
        .nil))

/-! ## C19 -/

section
variable {F : Type} [Fl F] [Add F] [Sub F] [Mul F] [Div F] [Neg F]

/-- **C19**, path by path, for all doubles: on every non-empty path one of the two barrier options
pays the vanilla payoff of the last price and the other pays 0. -/
theorem C19_exactlyOnePays (pay : F → Res F) (B : F) (d : BarrierDirection) {S : List F} {v : F}
    (h : S ≠ []) (hM : S.length ≤ INT_MAX) (hv : pay (S.getLast h) = .ok v) :
    (MC.barrierPath .knockIn (OptionModel.knockInIsActive B d) pay S.length S = .ok v ∧
      MC.barrierPath .knockOut (OptionModel.knockOutIsActive B d) pay S.length S = .ok (lit 0)) ∨
    (MC.barrierPath .knockIn (OptionModel.knockInIsActive B d) pay S.length S = .ok (lit 0) ∧
      MC.barrierPath .knockOut (OptionModel.knockOutIsActive B d) pay S.length S = .ok v) := by
  by_cases ht : Touched B d S
  · exact .inl ⟨barrierPath_knockIn hM ⟨h, fun _ => hv, fun h' => absurd ht h'⟩,
      barrierPath_knockOut hM ⟨h, fun h' => absurd ht h', fun _ => rfl⟩⟩
  · exact .inr ⟨barrierPath_knockIn hM ⟨h, fun h' => absurd h' ht, fun _ => rfl⟩,
      barrierPath_knockOut hM ⟨h, fun _ => hv, fun h' => absurd h' ht⟩⟩
/-- A path that dips below the barrier and comes back. -/
example (v B : F) (S : List F) (h : S ≠ []) (hM : S.length ≤ INT_MAX) :
    MC.barrierPath .knockIn (OptionModel.knockInIsActive B .down) (fun _ => .ok v) S.length S = .ok v ∨
    MC.barrierPath .knockOut (OptionModel.knockOutIsActive B .down) (fun _ => .ok v) S.length S =
      .ok v :=
  (C19_exactlyOnePays (fun _ => .ok v) B .down h hM rfl).imp And.left And.right

end

theorem foldl_add_real (l : List ℝ) : l.foldl (· + ·) (lit 0) = l.sum := by
  rw [List.sum_eq_foldl]; simp

theorem price_eq_discountedMean (vals : List ℝ) (r T : ℝ) {n : Nat} (h : vals.length = n) :
    vals.foldl (· + ·) (lit 0) / lit (n : ℚ) * Fl.exp (-r * T) = discountedMean r T vals := by
  rw [foldl_add_real, discountedMean, h]
  simp only [Fl.exp_real, Fl.lit_real, Rat.cast_natCast, neg_mul]
  ring

/-- Splitting the payoffs of the last prices into the knock-in and the knock-out part. -/
theorem split_knock (pay : ℝ → Res ℝ) (B : ℝ) (d : BarrierDirection) {paths : List (List ℝ)}
    {vals : List ℝ}
    (hv : List.Forall₂ (fun S v => ∃ h : S ≠ [], pay (S.getLast h) = .ok v) paths vals) :
    ∃ ki ko : List ℝ, List.Forall₂ (KnockInValue pay B d) paths ki ∧
      List.Forall₂ (KnockOutValue pay B d) paths ko ∧ ki.sum + ko.sum = vals.sum := by
  classical
  induction hv with
  | nil => exact ⟨[], [], .nil, .nil, by simp⟩
  | @cons S v _ _ h _ ih =>
    obtain ⟨ki, ko, h1, h2, h3⟩ := ih
    obtain ⟨hne, hv⟩ := h
    by_cases ht : Touched B d S
    · refine ⟨v :: ki, 0 :: ko, .cons ⟨hne, fun _ => hv, fun h' => absurd ht h'⟩ h1,
        .cons ⟨hne, fun h' => absurd ht h', fun _ => by simp⟩ h2, ?_⟩
      simp only [List.sum_cons]; linarith
    · refine ⟨0 :: ki, v :: ko, .cons ⟨hne, fun h' => absurd h' ht, fun _ => by simp⟩ h1,
        .cons ⟨hne, fun _ => hv, fun h' => absurd h' ht⟩ h2, ?_⟩
      simp only [List.sum_cons]; linarith

/-- **C19.** From the same state of the model and its generator (so on the same simulated paths), the
knock-in price plus the knock-out price equals the price of the option without barrier, for every
payoff, barrier, direction, rate, maturity and number of paths.  `hmat` says that the price at
maturity is the last simulated price; it holds for all models of the library
(`Sim.maturity`). -/
theorem C19_parity {σ : Type} (src : PathSource σ ℝ) (getR : Eff σ ℝ) (pay : ℝ → Res ℝ) (B : ℝ)
    (d : BarrierDirection) {T r : ℝ} {s s' : σ} {paths : List (List ℝ)}
    (hmat : src.simulatePriceAtMaturity T =
      (do let ps ← src.simulatePrices T; Eff.lift (vback ps)))
    (hR : getR s = (.ok r, s)) (hD : Draws (src.simulatePrices T) s paths s')
    (hN : paths.length ≤ INT_MAX) (h1 : 1 ≤ src.steps) (hsteps : src.steps ≤ INT_MAX)
    (hlen : ∀ S ∈ paths, S.length = src.steps) (hpay : ∀ x, ∃ v, pay x = .ok v) :
    ∃ ki ko vanilla : ℝ,
      MC.barrier .knockIn src getR (OptionModel.knockInIsActive B d) pay T paths.length s =
        (.ok ki, s') ∧
      MC.barrier .knockOut src getR (OptionModel.knockOutIsActive B d) pay T paths.length s =
        (.ok ko, s') ∧
      MC.singlePath src getR pay T paths.length s = (.ok vanilla, s') ∧
      ki + ko = vanilla := by
  -- the values of the last prices
  have hvals : ∃ vals : List ℝ,
      List.Forall₂ (fun S v => ∃ h : S ≠ [], pay (S.getLast h) = .ok v) paths vals := by
    clear hD hN
    induction paths with
    | nil => exact ⟨[], .nil⟩
    | cons S ps ih =>
      obtain ⟨vals, hv⟩ := ih (fun S hS => hlen S (List.mem_cons_of_mem _ hS))
      have hne : S ≠ [] := by
        intro h0; have := hlen S (List.mem_cons_self ..); rw [h0] at this; simp at this; omega
      obtain ⟨v, hv'⟩ := hpay (S.getLast hne)
      exact ⟨v :: vals, .cons ⟨hne, hv'⟩ hv⟩
  obtain ⟨vals, hv⟩ := hvals
  obtain ⟨ki, ko, hki, hko, hsum⟩ := split_knock pay B d hv
  refine ⟨_, _, vals.foldl (· + ·) (lit 0) / lit (paths.length : ℚ) * Fl.exp (-r * T),
    C20_knockIn src getR pay B d hR hD hN hsteps hlen hki,
    C20_knockOut src getR pay B d hR hD hN hsteps hlen hko, ?_, ?_⟩
  · rw [MC.singlePath_eq]
    -- the prices at maturity are the last prices of the same paths
    obtain ⟨ends, hE, hEl, hP⟩ : ∃ ends : List ℝ, Draws (src.simulatePriceAtMaturity T) s ends s' ∧
        ends.length = paths.length ∧ Pays pay ends vals := by
      rw [hmat]
      clear hN hlen hki hko hsum hR
      induction hD generalizing vals with
      | nil s => cases hv; exact ⟨[], .nil _, rfl, .nil⟩
      | cons h _ ih =>
        cases hv with
        | cons hS hrest =>
          obtain ⟨ends, hE, hEl, hP⟩ := ih _ hrest
          obtain ⟨hne, hS⟩ := hS
          refine ⟨_ :: ends, .cons ?_ hE, by simp [hEl], .cons hS hP⟩
          rw [Eff.bind_of_ok h]
          simp [vback, List.getLast?_eq_some_getLast hne]
    rw [← hEl]
    exact MC.intPricer_ok (by omega) hR hE hP
  · have e1 : ki.length = paths.length := hki.length_eq.symm
    have e2 : ko.length = paths.length := hko.length_eq.symm
    have e3 : vals.length = paths.length := hv.length_eq.symm
    rw [price_eq_discountedMean ki r T e1, price_eq_discountedMean ko r T e2,
      price_eq_discountedMean vals r T e3]
    simp only [discountedMean, e1, e2, e3, ← hsum]
    ring

/-- The hypotheses hold, for instance, for the replayed paths of the examples above. -/
example : ∃ ki ko vanilla : ℝ,
    MC.barrier .knockIn (replay 3) (Eff.lift (.ok (1 / 10 : ℝ))) (OptionModel.knockInIsActive 3 .up)
      (Payoff.vanilla .put (4 : ℝ)).eval1 2 2 [[1, 3, 2], [2, 1, 2.5]] = (.ok ki, []) ∧
    MC.barrier .knockOut (replay 3) (Eff.lift (.ok (1 / 10 : ℝ)))
      (OptionModel.knockOutIsActive 3 .up)
      (Payoff.vanilla .put (4 : ℝ)).eval1 2 2 [[1, 3, 2], [2, 1, 2.5]] = (.ok ko, []) ∧
    MC.singlePath (replay 3) (Eff.lift (.ok (1 / 10 : ℝ))) (Payoff.vanilla .put (4 : ℝ)).eval1 2 2
      [[1, 3, 2], [2, 1, 2.5]] = (.ok vanilla, []) ∧ ki + ko = vanilla :=
  C19_parity (replay 3) _ _ 3 .up
    (by funext s; cases s <;> rfl) rfl (replay_draws 3 2 [[1, 3, 2], [2, 1, 2.5]])
    (by simp [INT_MAX]) (by simp [replay]) (by simp [replay, INT_MAX]) (by simp [replay])
    (by intro x; exact ⟨_, rfl⟩)

/-! ## C23 -/

section
variable {F σ : Type} [Fl F] [Add F] [Sub F] [Mul F] [Div F] [Neg F]

/-- **C23**, single-path pricer, in any arithmetic: exactly `N` prices are simulated, in order (the
final state is the one after `N` simulations), their payoffs are summed in order, divided by `N` and
multiplied by `exp(-r T)`. -/
theorem C23_singlePath (src : PathSource σ F) (getR : Eff σ F) (pay : F → Res F) {T r : F} {s s' : σ}
    {prices vals : List F} (hR : getR s = (.ok r, s))
    (hD : Draws (src.simulatePriceAtMaturity T) s prices s') (hN : prices.length ≤ INT_MAX)
    (hv : Pays pay prices vals) :
    MC.singlePath src getR pay T prices.length s =
      (.ok (vals.foldl (· + ·) (lit 0) / lit (prices.length : ℚ) * Fl.exp (-r * T)), s') := by
  rw [MC.singlePath_eq]
  exact MC.intPricer_ok hN hR hD hv

end

/-- **C23**, single-path pricer, exact arithmetic: the price is `exp(-r T)` times the mean of the
`N` payoffs. -/
theorem C23_singlePath_mean {σ : Type} (src : PathSource σ ℝ) (getR : Eff σ ℝ) (pay : ℝ → Res ℝ)
    {T r : ℝ} {s s' : σ} {prices vals : List ℝ} (hR : getR s = (.ok r, s))
    (hD : Draws (src.simulatePriceAtMaturity T) s prices s') (hN : prices.length ≤ INT_MAX)
    (hv : Pays pay prices vals) :
    MC.singlePath src getR pay T prices.length s = (.ok (discountedMean r T vals), s') := by
  rw [C23_singlePath src getR pay hR hD hN hv, price_eq_discountedMean _ _ _ hv.length_eq.symm]

example : MC.singlePath (replay 1) (Eff.lift (.ok (1 / 10 : ℝ))) (Payoff.vanilla .call (2 : ℝ)).eval1
    3 2 [[4], [1]] = (.ok (discountedMean (1 / 10) 3 [2, 0]), []) :=
  C23_singlePath_mean (replay 1) _ _ rfl (prices := [4, 1])
    (.cons rfl (.cons rfl (.nil _))) (by simp [INT_MAX])
    (.cons (by simp [Payoff.eval1]; norm_num) (.cons (by simp [Payoff.eval1]) .nil))

/-- **C23**, barrier pricers, exact arithmetic. -/
theorem C23_barrier_mean {σ : Type} (src : PathSource σ ℝ) (getR : Eff σ ℝ) (pay : ℝ → Res ℝ) (B : ℝ)
    (d : BarrierDirection) {T r : ℝ} {s s' : σ} {paths : List (List ℝ)} {vi vo : List ℝ}
    (hR : getR s = (.ok r, s)) (hD : Draws (src.simulatePrices T) s paths s')
    (hN : paths.length ≤ INT_MAX) (hsteps : src.steps ≤ INT_MAX)
    (hlen : ∀ S ∈ paths, S.length = src.steps)
    (hi : List.Forall₂ (KnockInValue pay B d) paths vi)
    (ho : List.Forall₂ (KnockOutValue pay B d) paths vo) :
    MC.barrier .knockIn src getR (OptionModel.knockInIsActive B d) pay T paths.length s =
        (.ok (discountedMean r T vi), s') ∧
      MC.barrier .knockOut src getR (OptionModel.knockOutIsActive B d) pay T paths.length s =
        (.ok (discountedMean r T vo), s') := by
  rw [C20_knockIn src getR pay B d hR hD hN hsteps hlen hi,
    C20_knockOut src getR pay B d hR hD hN hsteps hlen ho,
    price_eq_discountedMean _ _ _ hi.length_eq.symm, price_eq_discountedMean _ _ _ ho.length_eq.symm]
  exact ⟨rfl, rfl⟩

example : MC.barrier .knockIn (replay 2) (Eff.lift (.ok (0 : ℝ)))
      (OptionModel.knockInIsActive 1 .down) (Payoff.vanilla .call (1 : ℝ)).eval1 1 1
      [[1, 3]] = (.ok (discountedMean 0 1 [2]), []) :=
  (C23_barrier_mean (replay 2) _ _ 1 .down rfl (replay_draws 2 1 [[1, 3]]) (vi := [2]) (vo := [0])
    (by simp [INT_MAX]) (by simp [replay, INT_MAX]) (by simp [replay])
    (.cons ⟨by simp, by intro _; simp [Payoff.eval1]; norm_num,
      by intro h; exact absurd ⟨1, by simp, by simp⟩ h⟩ .nil)
    (.cons ⟨by simp, by intro h; exact absurd ⟨1, by simp, by simp⟩ h, by simp⟩ .nil)).1

/-- **C23.** With `N = 0` every pricer returns NaN and simulates nothing (the state is unchanged). -/
theorem C23_noPaths {σ : Type} {R : Rounding} (src : PathSource σ (Dbl R)) (getR : Eff σ (Dbl R))
    (pay : Dbl R → Res (Dbl R)) (p : Payoff (Dbl R)) (ka : MC.AsianKind) (kb : MC.KnockKind)
    (kl : MC.LookbackKind) (isActive : Dbl R → Bool) {T r : Dbl R} {s : σ}
    (hR : getR s = (.ok r, s)) :
    MC.singlePath src getR pay T 0 s = (.ok .nan, s) ∧
    MC.asian ka src getR pay T 0 s = (.ok .nan, s) ∧
    MC.barrier kb src getR isActive pay T 0 s = (.ok .nan, s) ∧
    MC.lookback kl src getR p T 0 s = (.ok .nan, s) := by
  have key : ∀ {α : Type} (sim : Eff σ α) (pp : α → Res (Dbl R)),
      MC.longPricer sim getR pp T 0 s = (.ok .nan, s) := by
    intro α sim pp
    have h := MC.longPricer_ok (T := T) (pp := pp) hR (Draws.nil (sim := sim) s)
      (vals := []) .nil
    rw [show ([] : List α).length = 0 from rfl] at h
    rw [h]
    have : (List.foldl (· + ·) (lit 0) ([] : List (Dbl R)) / lit ((0 : ℕ) : ℚ)) = Dbl.nan := by
      simp [Dbl.div_num]
    rw [this, Dbl.nan_mul]
  refine ⟨?_, ?_, ?_, ?_⟩
  · rw [MC.singlePath_eq, MC.intPricer_eq_long (by simp)]; exact key _ _
  · rw [MC.asian_eq]; exact key _ _
  · rw [MC.barrier_eq, MC.intPricer_eq_long (by simp)]; exact key _ _
  · rw [MC.lookback_eq, MC.intPricer_eq_long (by simp)]; exact key _ _

example : MC.singlePath (replay 1) (Eff.lift (.ok (.num 0 : Dbl .exact)))
    (Payoff.vanilla .call (.num 1)).eval1 (.num 1) 0 [[.num 1]] = (.ok .nan, [[.num 1]]) :=
  (C23_noPaths (replay 1) _ _ (.floatingLookback .call) .arithmetic .knockIn .fixed (fun _ => true)
    rfl).1

/-- **C23.** With `N > INT_MAX` the single-path, barrier and lookback pricers run into undefined
behaviour (the increment of the `int` path index overflows after `INT_MAX + 1` paths). -/
theorem C23_tooManyPaths {F σ : Type} [Fl F] [Add F] [Sub F] [Mul F] [Div F] [Neg F] [FlInf F]
    (src : PathSource σ F) (getR : Eff σ F) {T r : F} {s : σ} {N : Nat} (hN : INT_MAX < N)
    (hR : getR s = (.ok r, s)) :
    (∀ pay prices vals s', Draws (src.simulatePriceAtMaturity T) s prices s' →
      prices.length = INT_MAX + 1 → Pays pay prices vals →
      MC.singlePath src getR pay T N s = (.ub, s')) ∧
    (∀ k isActive pay paths vals s', Draws (src.simulatePrices T) s paths s' →
      paths.length = INT_MAX + 1 → Pays (MC.barrierPath k isActive pay src.steps) paths vals →
      MC.barrier k src getR isActive pay T N s = (.ub, s')) ∧
    (∀ k p paths vals s', Draws (src.simulatePrices T) s paths s' →
      paths.length = INT_MAX + 1 → Pays (MC.lookbackPath k p src.steps) paths vals →
      MC.lookback k src getR p T N s = (.ub, s')) := by
  refine ⟨?_, ?_, ?_⟩
  · intro pay prices vals s' hD hl hp
    rw [MC.singlePath_eq]; exact MC.intPricer_ub hN hR hD hl hp
  · intro k isActive pay paths vals s' hD hl hp
    rw [MC.barrier_eq]; exact MC.intPricer_ub hN hR hD hl hp
  · intro k p paths vals s' hD hl hp
    rw [MC.lookback_eq]; exact MC.intPricer_ub hN hR hD hl hp

/-- A source that always returns the price 1 (for the example). -/
def constantSource : PathSource Unit ℝ where
  steps := 1
  simulatePrices _ := pure [1]
  simulatePriceAtMaturity _ := pure 1
  simulatePriceBackward _ _ _ := pure 1

theorem constantSource_draws (T : ℝ) (n : Nat) :
    Draws (constantSource.simulatePriceAtMaturity T) () (List.replicate n 1) () := by
  induction n with
  | zero => exact .nil _
  | succ n ih => exact .cons rfl ih

/-- Three billion paths of a constant price are undefined behaviour. -/
example : MC.singlePath constantSource (Eff.lift (.ok (0 : ℝ)))
    (Payoff.vanilla .call (0 : ℝ)).eval1 1 3000000000 () = (.ub, ()) := by
  have hp : ∀ n, Pays (Payoff.vanilla .call (0 : ℝ)).eval1 (List.replicate n 1)
      (List.replicate n 1) := by
    intro n
    induction n with
    | zero => exact .nil
    | succ n ih => exact .cons (by simp [Payoff.eval1]) ih
  rw [MC.singlePath_eq]
  exact MC.intPricer_ub (by simp [INT_MAX]) rfl
    (constantSource_draws 1 (INT_MAX + 1)) (List.length_replicate ..) (hp (INT_MAX + 1))

section
variable {F σ : Type} [Fl F] [Add F] [Sub F] [Mul F] [Div F] [Neg F]

/-- **C23.** If a simulation or a payoff throws before path `N`, the pricer throws the same
exception: it never returns a mean over fewer paths. -/
theorem C23_exceptionsPropagate (src : PathSource σ F) (getR : Eff σ F) (pay : F → Res F) {T r : F}
    {s s' s'' : σ} {prices vals : List F} {N : Nat} {e : Exc} (hR : getR s = (.ok r, s))
    (hD : Draws (src.simulatePriceAtMaturity T) s prices s') (hv : Pays pay prices vals)
    (hlt : prices.length < N) (hN : N ≤ INT_MAX)
    (hthrow : src.simulatePriceAtMaturity T s' = (.throw e, s'') ∨
      ∃ x, src.simulatePriceAtMaturity T s' = (.ok x, s'') ∧ pay x = .throw e) :
    MC.singlePath src getR pay T N s = (.throw e, s'') := by
  rw [MC.singlePath_eq]
  refine MC.intPricer_throw hlt (by omega) hR hD hv ?_
  intro acc
  rcases hthrow with h | ⟨x, h, hx⟩
  · exact MC.payBody_throw_sim h
  · exact MC.payBody_throw_pay h hx

end

/-- A floating-strike payoff has no single-price value: pricing it with a single-path pricer throws. -/
example : MC.singlePath constantSource (Eff.lift (.ok (0 : ℝ)))
    (Payoff.floatingLookback .call : Payoff ℝ).eval1 1 5 () =
    (.throw ⟨.logicError, "Single-argument operator() should be overridden."⟩, ()) :=
  C23_exceptionsPropagate (prices := []) (vals := []) constantSource _ _ rfl (.nil _) .nil
    (by simp) (by simp [INT_MAX]) (.inr ⟨1, rfl, rfl⟩)

end Verif
