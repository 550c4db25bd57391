import Verif.Model.MonteCarlo
import Verif.Spec.MonteCarloSpec

/-!
# Lemmas on the loops of the Monte Carlo pricers
-/

set_option linter.unusedSectionVars false

namespace Verif
open Spec

namespace Eff
variable {σ α β : Type}

@[simp] theorem forN_zero (body : α → Eff σ α) (a : α) (s : σ) :
    forN body 0 a s = (.ok a, s) := rfl

theorem forN_succ_ok {body : α → Eff σ α} {k : Nat} {a a' : α} {s s' : σ}
    (h : body a s = (.ok a', s')) : forN body (k + 1) a s = forN body k a' s' := by
  show (body a >>= fun a' => forN body k a') s = _
  rw [bind_of_ok h]

theorem forN_succ_throw {body : α → Eff σ α} {k : Nat} {a : α} {s s' : σ} {e : Exc}
    (h : body a s = (.throw e, s')) : forN body (k + 1) a s = (.throw e, s') := by
  show (body a >>= fun a' => forN body k a') s = _
  rw [bind_of_throw h]

theorem forN_succ_ub {body : α → Eff σ α} {k : Nat} {a : α} {s s' : σ}
    (h : body a s = (.ub, s')) : forN body (k + 1) a s = (.ub, s') := by
  show (body a >>= fun a' => forN body k a') s = _
  rw [bind_of_ub h]

theorem forInt_of_le {body : α → Eff σ α} {n : Nat} (h : n ≤ INT_MAX) (a : α) :
    forInt body n a = forN body n a := by
  funext s
  unfold forInt
  rw [min_eq_left (by omega)]
  simp only [if_pos h]
  exact congrFun (bind_pure _) s

theorem unfoldInt_of_le {body : α → Eff σ (α × β)} {n : Nat} (h : n ≤ INT_MAX) (a : α) :
    unfoldInt body n a = unfoldN body n a := by
  funext s
  unfold unfoldInt
  rw [min_eq_left (by omega)]
  simp only [if_pos h]
  exact congrFun (bind_pure _) s

end Eff

namespace MC
variable {F σ α : Type}

section
variable [Add F]

/-- The body common to all pricers: simulate, evaluate, add. -/
def payBody (sim : Eff σ α) (pp : α → Res F) (acc : F) : Eff σ F := do
  let S ← sim
  let p ← Eff.lift (pp S)
  return acc + p

theorem payBody_ok {sim : Eff σ α} {pp : α → Res F} {s s₁ : σ} {a : α} {v acc : F}
    (h : sim s = (.ok a, s₁)) (hv : pp a = .ok v) :
    payBody sim pp acc s = (.ok (acc + v), s₁) := by
  unfold payBody
  rw [Eff.bind_of_ok h, hv]; rfl

theorem payBody_throw_sim {sim : Eff σ α} {pp : α → Res F} {s s₁ : σ} {acc : F} {e : Exc}
    (h : sim s = (.throw e, s₁)) : payBody sim pp acc s = (.throw e, s₁) := by
  unfold payBody
  rw [Eff.bind_of_throw h]

theorem payBody_throw_pay {sim : Eff σ α} {pp : α → Res F} {s s₁ : σ} {a : α} {acc : F} {e : Exc}
    (h : sim s = (.ok a, s₁)) (hv : pp a = .throw e) :
    payBody sim pp acc s = (.throw e, s₁) := by
  unfold payBody
  rw [Eff.bind_of_ok h, hv]; rfl

theorem loop_append {sim : Eff σ α} {pp : α → Res F} {s s' : σ} {as : List α} (h : Draws sim s as s') :
    ∀ {vals : List F}, Pays pp as vals → ∀ (k : Nat) (acc : F),
      Eff.forN (payBody sim pp) (as.length + k) acc s =
        Eff.forN (payBody sim pp) k (vals.foldl (· + ·) acc) s' := by
  induction h with
  | nil s =>
    intro vals hp k acc
    cases hp; simp
  | cons h t ih =>
    intro vals hp k acc
    cases hp with
    | cons hv hp' =>
      rw [List.length_cons, Nat.add_right_comm, Eff.forN_succ_ok (payBody_ok h hv), ih hp']
      rfl

theorem loop_eq {sim : Eff σ α} {pp : α → Res F} {s s' : σ} {as : List α} {vals : List F}
    (h : Draws sim s as s') (hp : Pays pp as vals) (acc : F) :
    Eff.forN (payBody sim pp) as.length acc s = (.ok (vals.foldl (· + ·) acc), s') := by
  have := loop_append h hp 0 acc
  simpa using this

end

variable [Fl F] [Add F] [Sub F] [Mul F] [Div F] [Neg F]

/-- The pricers with an `int` path index. -/
def intPricer (sim : Eff σ α) (getR : Eff σ F) (pp : α → Res F) (T : F) (N : Nat) : Eff σ F := do
  let r ← getR
  let df := discount r T
  let sum ← Eff.forInt (payBody sim pp) N (lit 0)
  return finish sum N df

/-- The pricers with an `unsigned long` path index. -/
def longPricer (sim : Eff σ α) (getR : Eff σ F) (pp : α → Res F) (T : F) (N : Nat) : Eff σ F := do
  let r ← getR
  let df := discount r T
  let sum ← Eff.forN (payBody sim pp) N (lit 0)
  return finish sum N df

theorem singlePath_eq (src : PathSource σ F) (getR : Eff σ F) (pay : F → Res F) (T : F) (N : Nat) :
    singlePath src getR pay T N = intPricer (src.simulatePriceAtMaturity T) getR pay T N := rfl
theorem asian_eq (k : AsianKind) (src : PathSource σ F) (getR : Eff σ F) (pay : F → Res F) (T : F)
    (N : Nat) : asian k src getR pay T N =
      longPricer (src.simulatePrices T) getR (asianPath k pay src.steps) T N := rfl
theorem barrier_eq (k : KnockKind) (src : PathSource σ F) (getR : Eff σ F) (isActive : F → Bool)
    (pay : F → Res F) (T : F) (N : Nat) : barrier k src getR isActive pay T N =
      intPricer (src.simulatePrices T) getR (barrierPath k isActive pay src.steps) T N := rfl
theorem lookback_eq [FlInf F] (k : LookbackKind) (src : PathSource σ F) (getR : Eff σ F)
    (p : Payoff F) (T : F) (N : Nat) : lookback k src getR p T N =
      intPricer (src.simulatePrices T) getR (lookbackPath k p src.steps) T N := rfl

theorem longPricer_ok {sim : Eff σ α} {getR : Eff σ F} {pp : α → Res F} {T r : F} {s s' : σ}
    {as : List α} {vals : List F} (hR : getR s = (.ok r, s)) (h : Draws sim s as s')
    (hp : Pays pp as vals) :
    longPricer sim getR pp T as.length s =
      (.ok (vals.foldl (· + ·) (lit 0) / lit (as.length : ℚ) * Fl.exp (-r * T)), s') := by
  unfold longPricer
  rw [Eff.bind_of_ok hR]
  rw [Eff.bind_of_ok (loop_eq h hp _)]
  rfl

theorem intPricer_eq_long {sim : Eff σ α} {getR : Eff σ F} {pp : α → Res F} {T : F} {N : Nat}
    (hN : N ≤ INT_MAX) : intPricer sim getR pp T N = longPricer sim getR pp T N := by
  unfold intPricer longPricer
  simp only [Eff.forInt_of_le hN]

theorem intPricer_ok {sim : Eff σ α} {getR : Eff σ F} {pp : α → Res F} {T r : F} {s s' : σ}
    {as : List α} {vals : List F} (hN : as.length ≤ INT_MAX) (hR : getR s = (.ok r, s))
    (h : Draws sim s as s') (hp : Pays pp as vals) :
    intPricer sim getR pp T as.length s =
      (.ok (vals.foldl (· + ·) (lit 0) / lit (as.length : ℚ) * Fl.exp (-r * T)), s') := by
  rw [intPricer_eq_long hN, longPricer_ok hR h hp]

theorem intPricer_ub {sim : Eff σ α} {getR : Eff σ F} {pp : α → Res F} {T r : F} {s s' : σ}
    {as : List α} {vals : List F} {N : Nat} (hN : INT_MAX < N) (hR : getR s = (.ok r, s))
    (h : Draws sim s as s') (hl : as.length = INT_MAX + 1) (hp : Pays pp as vals) :
    intPricer sim getR pp T N s = (.ub, s') := by
  unfold intPricer
  rw [Eff.bind_of_ok hR]
  have : Eff.forInt (payBody sim pp) N (lit 0) s = (.ub, s') := by
    unfold Eff.forInt
    rw [min_eq_right (by omega), ← hl, Eff.bind_of_ok (loop_eq h hp _), if_neg (by omega)]
    rfl
  rw [Eff.bind_of_ub this]

theorem longPricer_throw {sim : Eff σ α} {getR : Eff σ F} {pp : α → Res F} {T r : F} {s s' s'' : σ}
    {as : List α} {vals : List F} {N : Nat} {e : Exc} (hN : as.length < N)
    (hR : getR s = (.ok r, s)) (h : Draws sim s as s') (hp : Pays pp as vals)
    (hb : ∀ acc, payBody sim pp acc s' = (.throw e, s'')) :
    longPricer sim getR pp T N s = (.throw e, s'') := by
  unfold longPricer
  rw [Eff.bind_of_ok hR]
  have : Eff.forN (payBody sim pp) N (lit 0) s = (.throw e, s'') := by
    obtain ⟨k, rfl⟩ : ∃ k, N = as.length + (k + 1) := ⟨N - as.length - 1, by omega⟩
    rw [loop_append h hp, Eff.forN_succ_throw (hb _)]
  rw [Eff.bind_of_throw this]

theorem intPricer_throw {sim : Eff σ α} {getR : Eff σ F} {pp : α → Res F} {T r : F} {s s' s'' : σ}
    {as : List α} {vals : List F} {N : Nat} {e : Exc} (hN : as.length < N)
    (hM : as.length ≤ INT_MAX)
    (hR : getR s = (.ok r, s)) (h : Draws sim s as s') (hp : Pays pp as vals)
    (hb : ∀ acc, payBody sim pp acc s' = (.throw e, s'')) :
    intPricer sim getR pp T N s = (.throw e, s'') := by
  unfold intPricer
  rw [Eff.bind_of_ok hR]
  have : Eff.forInt (payBody sim pp) N (lit 0) s = (.throw e, s'') := by
    unfold Eff.forInt
    obtain ⟨k, hk⟩ : ∃ k, min N (INT_MAX + 1) = as.length + (k + 1) :=
      ⟨min N (INT_MAX + 1) - as.length - 1, by omega⟩
    rw [Eff.bind_of_throw (e := e) (s' := s'')]
    rw [hk, loop_append h hp, Eff.forN_succ_throw (hb _)]
  rw [Eff.bind_of_throw this]

/-! ## The monitoring loop -/

/-- Without `break`, the loop over all `steps` prices is a left fold over the path. -/
theorem scan_fold {β : Type} {body : β → F → β × Bool} (hb : ∀ a x, (body a x).2 = false)
    (S : List F) : ∀ (k t : Nat) (a : β), t + k = S.length → S.length ≤ INT_MAX →
      scan body S k t a = .ok ((S.drop t).foldl (fun a x => (body a x).1) a) := by
  intro k
  induction k with
  | zero => intro t a h _; rw [List.drop_of_length_le (by omega)]; rfl
  | succ k ih =>
    intro t a h hM
    have ht : t < S.length := by omega
    rw [scan]
    have : vget S t = .ok S[t] := by simp [vget, ht]
    rw [this, Res.bind_ok]
    dsimp only
    rw [hb, if_neg (by simp), if_pos (by omega), ih (t + 1) _ (by omega) hM,
      List.drop_eq_getElem_cons ht]
    rfl

theorem vget_last {S : List F} (h : S ≠ []) :
    vget S (upred S.length) = .ok (S.getLast h) := by
  have : 0 < S.length := List.length_pos_iff.mpr h
  simp only [vget, upred]
  rw [if_neg (by omega), List.getLast_eq_getElem h, List.getElem?_eq_getElem (by omega)]

theorem scan_knockIn (isActive : F → Bool) (S : List F) (hM : S.length ≤ INT_MAX) :
    scan (KnockKind.knockIn.check isActive) S S.length 0 false = .ok (S.any isActive) := by
  rw [scan_fold (by intro a x; rfl) S _ _ _ (by omega) hM]
  rw [List.drop_zero]
  have : ∀ (l : List F) (a : Bool),
      l.foldl (fun a x => (KnockKind.knockIn.check isActive a x).1) a = (a || l.any isActive) := by
    intro l
    induction l with
    | nil => intro a; simp
    | cons x l ih =>
      intro a
      rw [List.foldl_cons, ih, List.any_cons]
      simp only [KnockKind.check]
      cases a <;> cases isActive x <;> simp
  rw [this]; simp

theorem scan_knockOut (isActive : F → Bool) (S : List F) : ∀ (k t : Nat), t + k = S.length →
    S.length ≤ INT_MAX →
    scan (KnockKind.knockOut.check isActive) S k t false =
      .ok ((S.drop t).any (fun x => !(isActive x))) := by
  intro k
  induction k with
  | zero => intro t h _; rw [List.drop_of_length_le (by omega)]; rfl
  | succ k ih =>
    intro t h hM
    have ht : t < S.length := by omega
    rw [scan]
    have : vget S t = .ok S[t] := by simp [vget, ht]
    rw [this, Res.bind_ok, List.drop_eq_getElem_cons ht, List.any_cons]
    dsimp only [KnockKind.check]
    cases hA : isActive S[t]
    · simp
    · simp only [Bool.not_true, Bool.false_eq_true, if_false, Bool.false_or]
      rw [if_pos (by omega), ih (t + 1) (by omega) hM]

end MC
end Verif
