import Verif.Props.PathDependent

/-!
# C23: the Asian pricers in any arithmetic, and exceptions during a simulation
-/

namespace Verif
open Spec

section
variable {F σ : Type} [Fl F] [Add F] [Sub F] [Mul F] [Div F] [Neg F]

/-- **C23**, Asian pricers, in any arithmetic: exactly `N` paths are simulated, in order, the
payoffs of their (arithmetic or geometric) averages are summed in order, divided by `N` and
multiplied by `exp(-r T)`.  `N` is not limited: the path index is an `unsigned long`. -/
theorem C23_asian (src : PathSource σ F) (getR : Eff σ F) (pay : F → Res F)
    {T r : F} {s s' : σ} {paths : List (List F)} {va vg : List F}
    (hR : getR s = (.ok r, s)) (hD : Draws (src.simulatePrices T) s paths s')
    (hsteps : src.steps ≤ INT_MAX) (hlen : ∀ S ∈ paths, S.length = src.steps)
    (ha : List.Forall₂ (fun S v => pay (S.foldl (· + ·) (lit 0) / lit (S.length : ℚ)) = .ok v)
      paths va)
    (hg : List.Forall₂ (fun S v =>
      pay (Fl.exp ((S.map Fl.log).foldl (· + ·) (lit 0) / lit (S.length : ℚ))) = .ok v) paths vg) :
    MC.asian .arithmetic src getR pay T paths.length s =
        (.ok (va.foldl (· + ·) (lit 0) / lit (paths.length : ℚ) * Fl.exp (-r * T)), s') ∧
      MC.asian .geometric src getR pay T paths.length s =
        (.ok (vg.foldl (· + ·) (lit 0) / lit (paths.length : ℚ) * Fl.exp (-r * T)), s') := by
  rw [MC.asian_eq, MC.asian_eq]
  refine ⟨MC.longPricer_ok hR hD ?_, MC.longPricer_ok hR hD ?_⟩
  · clear hD hg
    induction ha with
    | nil => exact .nil
    | @cons S _ _ _ h _ ih =>
      refine .cons ?_ (ih (fun S hS => hlen S (List.mem_cons_of_mem _ hS)))
      have := hlen S (List.mem_cons_self ..)
      rw [← this, asianPath_arith _ _ (by omega)]
      exact h
  · clear hD ha
    induction hg with
    | nil => exact .nil
    | @cons S _ _ _ h _ ih =>
      refine .cons ?_ (ih (fun S hS => hlen S (List.mem_cons_of_mem _ hS)))
      have := hlen S (List.mem_cons_self ..)
      rw [← this, asianPath_geom _ _ (by omega)]
      exact h

/-- A list on which `pp` is defined everywhere has a list of values. -/
theorem pays_of_total {α β : Type} {pp : α → Res β} : ∀ {as : List α},
    (∀ a ∈ as, ∃ v, pp a = .ok v) → ∃ vals, Pays pp as vals
  | [], _ => ⟨[], .nil⟩
  | a :: as, h => by
    obtain ⟨v, hv⟩ := h a (List.mem_cons_self ..)
    obtain ⟨vs, hvs⟩ := pays_of_total (fun b hb => h b (List.mem_cons_of_mem _ hb))
    exact ⟨v :: vs, .cons hv hvs⟩

variable [FlInf F]

/-- **C23.** If the simulation of some path before path `N` throws, the Asian, barrier and lookback
pricers throw the same exception, whatever was summed before: no price over fewer paths is
returned.  (The payoff is one that has a value at every price.) -/
theorem C23_pathExceptions (src : PathSource σ F) (getR : Eff σ F) (p : Payoff F) {T r : F}
    {s s' s'' : σ} {paths : List (List F)} {N : Nat} {e : Exc} (hR : getR s = (.ok r, s))
    (hD : Draws (src.simulatePrices T) s paths s') (h1 : 1 ≤ src.steps)
    (hsteps : src.steps ≤ INT_MAX)
    (hlen : ∀ S ∈ paths, S.length = src.steps) (hlt : paths.length < N) (hN : N ≤ INT_MAX)
    (hthrow : src.simulatePrices T s' = (.throw e, s'')) :
    (∀ k, (∀ x, ∃ v, p.eval1 x = .ok v) → MC.asian k src getR p.eval1 T N s = (.throw e, s'')) ∧
    (∀ k isActive, (∀ x, ∃ v, p.eval1 x = .ok v) →
      MC.barrier k src getR isActive p.eval1 T N s = (.throw e, s'')) ∧
    ((∀ x, ∃ v, p.eval1 x = .ok v) → MC.lookback .fixed src getR p T N s = (.throw e, s'')) ∧
    ((∀ x y, ∃ v, p.eval2 x y = .ok v) → MC.lookback .floating src getR p T N s = (.throw e, s'')) := by
  have last : ∀ S ∈ paths, ∃ l, vget S (upred src.steps) = .ok l := by
    intro S hS
    have h := hlen S hS
    have hu : upred src.steps = src.steps - 1 := by
      unfold upred; rw [if_neg (by omega)]
    have : src.steps - 1 < S.length := by omega
    exact ⟨S[src.steps - 1], by simp [vget, hu, this]⟩
  have scanned : ∀ {β : Type} (body : β → F → β × Bool) (S : List F) (k t : Nat) (a : β),
      t + k = S.length → S.length ≤ INT_MAX → ∃ b, MC.scan body S k t a = .ok b := by
    intro β body S k
    induction k with
    | zero => intro t a _ _; exact ⟨a, rfl⟩
    | succ k ih =>
      intro t a h hM
      have ht : t < S.length := by omega
      have hg : vget S t = .ok S[t] := by simp [vget, ht]
      unfold MC.scan
      rw [hg]
      show ∃ b, (if (body a S[t]).2 = true then Res.ok (body a S[t]).1 else
        if t < INT_MAX then MC.scan body S k (t + 1) (body a S[t]).1 else Res.ub) = Res.ok b
      split
      · exact ⟨_, rfl⟩
      · rw [if_pos (by omega)]; exact ih _ _ (by omega) hM
  refine ⟨?_, ?_, ?_, ?_⟩
  · intro k hp
    obtain ⟨vals, hv⟩ := pays_of_total (pp := MC.asianPath k p.eval1 src.steps) (as := paths) (by
      intro S hS
      have h := hlen S hS
      obtain ⟨b, hb⟩ := scanned (fun a x => (a + k.term x, false)) S src.steps 0 (lit 0 : F)
        (by omega) (by omega)
      unfold MC.asianPath
      rw [hb]
      exact hp _)
    rw [MC.asian_eq]
    exact MC.longPricer_throw hlt hR hD hv (fun acc => MC.payBody_throw_sim hthrow)
  · intro k isActive hp
    obtain ⟨vals, hv⟩ := pays_of_total (pp := MC.barrierPath k isActive p.eval1 src.steps)
      (as := paths) (by
      intro S hS
      have h := hlen S hS
      obtain ⟨l, hl⟩ := last S hS
      obtain ⟨b, hb⟩ := scanned (k.check isActive) S src.steps 0 false (by omega) (by omega)
      unfold MC.barrierPath
      rw [hb]
      show ∃ v, ((vget S (upred src.steps)).bind fun last => k.payoff p.eval1 last b) = Res.ok v
      rw [hl]
      show ∃ v, k.payoff p.eval1 l b = Res.ok v
      cases k <;> cases b <;> simp [MC.KnockKind.payoff, hp])
    rw [MC.barrier_eq]
    exact MC.intPricer_throw hlt (by omega) hR hD hv (fun acc => MC.payBody_throw_sim hthrow)
  · intro hp
    obtain ⟨vals, hv⟩ := pays_of_total (pp := MC.lookbackPath .fixed p src.steps)
      (as := paths) (by
      intro S hS
      have h := hlen S hS
      obtain ⟨l, hl⟩ := last S hS
      obtain ⟨b, hb⟩ := scanned (fun a x => ((Fl.min a.1 x, Fl.max a.2 x), false)) S src.steps 0
        ((FlInf.inf, -FlInf.inf) : F × F) (by omega) (by omega)
      unfold MC.lookbackPath
      rw [hb]
      show ∃ v, ((vget S (upred src.steps)).bind fun last =>
        MC.LookbackKind.fixed.payoff p last b.1 b.2) = Res.ok v
      rw [hl]
      show ∃ v, MC.LookbackKind.fixed.payoff p l b.1 b.2 = Res.ok v
      unfold MC.LookbackKind.payoff
      dsimp only
      split
      · exact hp _
      · exact hp _)
    rw [MC.lookback_eq]
    exact MC.intPricer_throw hlt (by omega) hR hD hv (fun acc => MC.payBody_throw_sim hthrow)
  · intro hp
    obtain ⟨vals, hv⟩ := pays_of_total (pp := MC.lookbackPath .floating p src.steps)
      (as := paths) (by
      intro S hS
      have h := hlen S hS
      obtain ⟨l, hl⟩ := last S hS
      obtain ⟨b, hb⟩ := scanned (fun a x => ((Fl.min a.1 x, Fl.max a.2 x), false)) S src.steps 0
        ((FlInf.inf, -FlInf.inf) : F × F) (by omega) (by omega)
      unfold MC.lookbackPath
      rw [hb]
      show ∃ v, ((vget S (upred src.steps)).bind fun last =>
        MC.LookbackKind.floating.payoff p last b.1 b.2) = Res.ok v
      rw [hl]
      show ∃ v, MC.LookbackKind.floating.payoff p l b.1 b.2 = Res.ok v
      unfold MC.LookbackKind.payoff
      dsimp only
      split
      · exact hp _ _
      · exact hp _ _)
    rw [MC.lookback_eq]
    exact MC.intPricer_throw hlt (by omega) hR hD hv (fun acc => MC.payBody_throw_sim hthrow)

end

example : MC.asian .arithmetic (replay 2) (Eff.lift (.ok (1 / 10 : ℝ)))
    (Payoff.vanilla .call (2 : ℝ)).eval1 3 2 [[1, 5], [1, 2]] =
      (.ok (([1, 0] : List ℝ).foldl (· + ·) (lit 0) / lit ((2 : ℕ) : ℚ) *
        Fl.exp (-(1 / 10) * 3)), []) :=
  (C23_asian (replay 2) _ _ rfl (replay_draws 2 3 [[1, 5], [1, 2]]) (va := [1, 0])
    (vg := [_, _])
    (by simp [replay, INT_MAX]) (by simp [replay])
    (.cons (by simp [Payoff.eval1]; norm_num) (.cons (by simp [Payoff.eval1]; norm_num) .nil))
    (.cons (by simp only [Payoff.eval1]; rfl) (.cons (by simp only [Payoff.eval1]; rfl) .nil))).1

/-- A source that yields one path of two prices and then throws. -/
noncomputable def oneThenThrow {R : Rounding} : PathSource Bool (Dbl R) where
  steps := 2
  simulatePrices _ := fun b =>
    if b then (.ok [lit 1, lit 2], false) else (.throw ⟨.runtimeError, "exhausted"⟩, false)
  simulatePriceAtMaturity _ := fun b => (.ok (lit 1), b)
  simulatePriceBackward _ _ _ := fun b => (.ok (lit 1), b)

example {R : Rounding} : MC.lookback .fixed oneThenThrow (Eff.lift (.ok (lit 0 : Dbl R)))
      (.vanilla .call (lit 1)) (lit 1) 5 true = (.throw ⟨.runtimeError, "exhausted"⟩, false) :=
  (C23_pathExceptions (s' := false) (paths := [[lit 1, lit 2]]) oneThenThrow _ _ rfl
    (.cons rfl (.nil _)) (by simp [oneThenThrow]) (by simp [oneThenThrow, INT_MAX])
    (by simp [oneThenThrow]) (by simp) (by simp [INT_MAX]) rfl).2.2.1 (fun x => ⟨_, rfl⟩)

end Verif
