import Verif.Lemmas.FdmBlackScholes
import Verif.Spec.FdmSpec
import Mathlib.Tactic.FieldSimp
import Mathlib.Tactic.NormNum
import Mathlib.Tactic.Linarith

/-!
# Property C53: the grids of the finite difference solvers
-/

namespace Verif
open Spec Fdm

namespace Fdm

/-- What the constructor makes. -/
theorem construct_ok {sc : Scheme ℝ} {xDom tDom : ℝ} {J N : ℕ} {p : Pde ℝ} {junk : ℕ → ℝ} {s : Fdm ℝ}
    (h : construct sc xDom J tDom N p junk = .ok s) (hJ : 2 ≤ J) (hN : 2 ≤ N) :
    ∃ old : List ℝ, old.length = J ∧ Res.each p.initialCondition (vec J fun j => (j : ℝ) * (xDom / (J - 1))) = .ok old ∧
      s = { xDom := xDom, J := J, dx := xDom / (J - 1), dx2 := xDom / (J - 1) * (xDom / (J - 1)),
            xValues := vec J fun j => (j : ℝ) * (xDom / (J - 1)), tDom := tDom, N := N, dt := tDom / (N - 1),
            tPrev := 0, tCurr := 0, newPrices := vec J fun _ => 0, oldPrices := old, solved := false,
            b := vec (J - 2) junk } := by
  have eJ : ((ulpred J : ℕ) : ℝ) = J - 1 := by
    rw [ulpred_pos (by omega), Nat.cast_sub (by omega)]; simp
  have eN : ((ulpred N : ℕ) : ℝ) = N - 1 := by
    rw [ulpred_pos (by omega), Nat.cast_sub (by omega)]; simp
  unfold construct at h
  rw [Res.bind_eq_ok] at h
  obtain ⟨s0, h0, h⟩ := h
  have hs : s = s0 := by
    cases sc with
    | explicit => exact (Res.ok.inj h).symm
    | implicit _ => dsimp only at h; split at h <;> cases h; rfl
    | crankNicolson _ => dsimp only at h; split at h <;> cases h; rfl
  subst hs
  unfold constructBase at h0
  dsimp only at h0
  rw [Res.bind_eq_ok] at h0
  obtain ⟨old, h1, h2⟩ := h0
  simp only [Fl.lit_real, Rat.cast_natCast, eJ, eN, Rat.cast_zero] at h1 h2
  have hl : ∀ (l : List ℝ) (o : List ℝ), Res.each p.initialCondition l = .ok o → o.length = l.length := by
    intro l
    induction l with
    | nil => intro o ho; cases ho; rfl
    | cons a l ih =>
      intro o ho
      simp only [Res.each] at ho
      rw [Res.bind_eq_ok] at ho
      obtain ⟨y, -, ho⟩ := ho
      rw [Res.bind_eq_ok] at ho
      obtain ⟨ys, hys, ho⟩ := ho
      cases ho
      simp [ih ys hys]
  refine ⟨old, by simpa using hl _ _ h1, h1, ?_⟩
  cases h2
  congr 1
  simp [vec]

/-- The constructor returns. -/
theorem construct_returns {xDom tDom : ℝ} {J N : ℕ} {p : Pde ℝ} {q : Problem} (hp : Describes p q) (junk : ℕ → ℝ) (hJ : 2 ≤ J)
    (hm : J - 2 ≤ INT_MAX) (sc : Scheme ℝ) : ∃ s, construct sc xDom J tDom N p junk = .ok s := by
  have : ∃ s, constructBase xDom J tDom N p ((List.range (J - 2)).map junk) = .ok s := by
    unfold constructBase
    dsimp only
    have e := each_vec (f := p.initialCondition) (n := J) (g := fun j : ℕ => (lit (j : ℚ) : ℝ) * (xDom / lit (ulpred J : ℚ)))
      (w := fun j => q.initial (lit (j : ℚ) * (xDom / lit (ulpred J : ℚ)))) (fun i _ => hp.initialCondition _)
    unfold vec at e
    rw [e]
    exact ⟨_, rfl⟩
  obtain ⟨s, hs⟩ := this
  refine ⟨s, ?_⟩
  unfold construct
  rw [hs, Res.bind_ok]
  cases sc with
  | explicit => rfl
  | implicit _ => dsimp only; rw [if_neg (by omega)]; rfl
  | crankNicolson _ => dsimp only; rw [if_neg (by omega)]; rfl

theorem construct_explicit {xDom tDom : ℝ} {J N : ℕ} {p : Pde ℝ} {q : Problem} (hp : Describes p q) (junk : ℕ → ℝ) :
    ∃ s, construct .explicit xDom J tDom N p junk = .ok s := by
  unfold construct constructBase
  dsimp only
  have e := each_vec (f := p.initialCondition) (n := J) (g := fun j : ℕ => (lit (j : ℚ) : ℝ) * (xDom / lit (ulpred J : ℚ)))
    (w := fun j => q.initial (lit (j : ℚ) * (xDom / lit (ulpred J : ℚ)))) (fun i _ => hp.initialCondition _)
  unfold vec at e
  rw [e]
  exact ⟨_, rfl⟩

end Fdm

/-- **C53.** The space grid of every solver has `J` nodes, with equal distances, from 0 to `xDom`. -/
theorem C53_grid (sc : Scheme ℝ) (p : Pde ℝ) (xDom tDom : ℝ) (J N : ℕ) (junk : ℕ → ℝ) (s : Fdm ℝ) (hJ : 2 ≤ J) (hN : 2 ≤ N)
    (h : construct sc xDom J tDom N p junk = .ok s) :
    s.xValues.length = J ∧ s.xValues[0]? = some 0 ∧ s.xValues[J - 1]? = some xDom ∧
      (∀ j (a b : ℝ), s.xValues[j]? = some a → s.xValues[j + 1]? = some b → b - a = xDom / (J - 1)) ∧
      s.oldPrices.length = J ∧ s.newPrices.length = J := by
  obtain ⟨old, hl, -, rfl⟩ := construct_ok h hJ hN
  have hJ0 : (J : ℝ) - 1 ≠ 0 := by
    have : (2 : ℝ) ≤ J := by exact_mod_cast hJ
    linarith
  refine ⟨by simp, ?_, ?_, ?_, hl, by simp⟩
  · simp only [vec_getElem? _ (show 0 < J by omega)]
    simp
  · simp only [vec_getElem? _ (show J - 1 < J by omega)]
    rw [Nat.cast_sub (by omega)]
    simp only [Nat.cast_one, Option.some.injEq]
    field_simp
  · intro j a b ha hb
    have hj : j + 1 < J := by
      by_contra hc
      rw [List.getElem?_eq_none (by simp; omega)] at hb
      cases hb
    simp only [vec_getElem? _ (show j < J by omega), vec_getElem? _ hj, Option.some.injEq] at ha hb
    rw [← ha, ← hb]
    push_cast
    ring

example : ∃ s, construct (.crankNicolson thomas) 2 5 1 3 (BlackScholes.pde (exampleOption .put) exampleMarket) (fun _ => 7) = .ok s ∧
    s.xValues[4]? = some 2 ∧ s.oldPrices.length = 5 := by
  obtain ⟨s, hs⟩ := construct_returns (xDom := 2) (tDom := 1) (N := 3) (J := 5) example_put (fun _ => 7) (by norm_num) (by decide)
    (.crankNicolson thomas)
  have := C53_grid _ _ 2 1 5 3 _ s (by norm_num) (by norm_num) hs
  exact ⟨s, hs, by simpa using this.2.2.1, this.2.2.2.2.1⟩

/-- **C53.** `solve()` performs exactly `N-1` time steps: when it returns, it went through states
connected by `N-1` steps, step `n` from time `n dt` to `(n+1) dt` with `dt = tDom/(N-1)`, the last one to
`tDom`; the result is the vector of the last step. -/
theorem C53_steps (sc : Scheme ℝ) (p : Pde ℝ) (xDom tDom : ℝ) (J N : ℕ) (junk : ℕ → ℝ) (s : Fdm ℝ) (hJ : 2 ≤ J) (hN : 2 ≤ N)
    (hT : 0 < tDom) (h : construct sc xDom J tDom N p junk = .ok s) (fuel : ℕ) (hf : N ≤ fuel) (v : List ℝ) (s' : Fdm ℝ)
    (hs : solve sc p fuel s = (.ok v, s')) :
    ∃ st : ℕ → Fdm ℝ, st 0 = s ∧ (∀ n < N - 1, step sc p (st n) = (.ok (), st (n + 1))) ∧
      (∀ n ≤ N - 1, (st n).tPrev = n * (tDom / (N - 1)) ∧ (st n).tCurr = n * (tDom / (N - 1))) ∧
      (st (N - 1)).tCurr = tDom ∧ v = (st (N - 1)).newPrices ∧ s' = { st (N - 1) with solved := true } := by
  obtain ⟨old, -, -, e⟩ := construct_ok h hJ hN
  have hN1 : (0 : ℝ) < N - 1 := by
    have : (2 : ℝ) ≤ N := by exact_mod_cast hN
    linarith
  have hcast : ((N - 1 : ℕ) : ℝ) = N - 1 := by rw [Nat.cast_sub (by omega)]; simp
  have hloop := timeLoop_real sc p (N - 1) fuel s (by rw [e]) (by rw [e]; exact div_pos hT hN1)
    (by rw [e]; simp only [hcast]; field_simp; ring) (by omega)
  unfold solve at hs
  rcases hx : timeLoop sc p fuel s with ⟨r, s1⟩
  cases r with
  | ok a =>
    rw [Eff.bind_of_ok hx, Eff.bind_of_ok (Eff.modify_apply _ _), Eff.read_apply] at hs
    rw [hloop] at hx
    obtain ⟨st, h0, hn, hk⟩ := forN_states _ _ _ hx
    have ht : ∀ n ≤ N - 1, (st n).tPrev = n * (tDom / (N - 1)) ∧ (st n).tCurr = n * (tDom / (N - 1)) ∧
        (st n).dt = tDom / (N - 1) := by
      intro n
      induction n with
      | zero => intro _; rw [h0, e]; simp
      | succ n ih =>
        intro hn'
        obtain ⟨i1, i2, i3⟩ := ih (by omega)
        obtain ⟨w, c, -, -, -, e'⟩ := step_ok (hk n (by omega))
        rw [e']
        dsimp only
        rw [i1, i3]
        refine ⟨?_, ?_, rfl⟩ <;> · push_cast; ring
    refine ⟨st, h0, hk, fun n hn' => ⟨(ht n hn').1, (ht n hn').2.1⟩, ?_, ?_, ?_⟩
    · rw [(ht (N - 1) le_rfl).2.1, hcast]
      field_simp
    · rw [hn]; exact (Res.ok.inj (Prod.mk.inj hs).1).symm
    · rw [hn]; exact (Prod.mk.inj hs).2.symm
  | throw x => rw [Eff.bind_of_throw hx] at hs; cases (Prod.mk.inj hs).1
  | ub => rw [Eff.bind_of_ub hx] at hs; cases (Prod.mk.inj hs).1

/-- **C53.** Conversely, if `N-1` steps can be performed one after the other, `solve()` returns. -/
theorem C53_returns (sc : Scheme ℝ) (p : Pde ℝ) (xDom tDom : ℝ) (J N : ℕ) (junk : ℕ → ℝ) (s : Fdm ℝ) (hJ : 2 ≤ J) (hN : 2 ≤ N)
    (hT : 0 < tDom) (h : construct sc xDom J tDom N p junk = .ok s) (fuel : ℕ) (hf : N ≤ fuel) (st : ℕ → Fdm ℝ) (h0 : st 0 = s)
    (hst : ∀ n < N - 1, step sc p (st n) = (.ok (), st (n + 1))) :
    solve sc p fuel s = (.ok (st (N - 1)).newPrices, { st (N - 1) with solved := true }) := by
  obtain ⟨old, -, -, e⟩ := construct_ok h hJ hN
  have hN1 : (0 : ℝ) < N - 1 := by
    have : (2 : ℝ) ≤ N := by exact_mod_cast hN
    linarith
  have hcast : ((N - 1 : ℕ) : ℝ) = N - 1 := by rw [Nat.cast_sub (by omega)]; simp
  have hloop := timeLoop_real sc p (N - 1) fuel s (by rw [e]) (by rw [e]; exact div_pos hT hN1)
    (by rw [e]; simp only [hcast]; field_simp; ring) (by omega)
  rw [← h0, forN_of_states (N - 1) st hst, h0] at hloop
  unfold solve
  rw [Eff.bind_of_ok hloop, Eff.bind_of_ok (Eff.modify_apply _ _), Eff.read_apply]

end Verif
