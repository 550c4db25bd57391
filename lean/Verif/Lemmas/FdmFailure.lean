import Verif.Lemmas.Fdm
import Verif.Spec.FdmFailureSpec

/-!
# Where a time step can fail
-/

namespace Verif
open Spec

namespace Res

theorem bind_eq_throw {α β : Type} {x : Res α} {f : α → Res β} {e : Exc} (h : (x >>= f) = .throw e) :
    x = .throw e ∨ ∃ a, x = .ok a ∧ f a = .throw e := by
  cases x with
  | ok a => exact .inr ⟨a, rfl, h⟩
  | throw e' => rw [Res.bind_throw] at h; exact .inl (by cases h; rfl)
  | ub => cases h

theorem each_ok {α β : Type} {f : α → Res β} : ∀ {l : List α} {r : List β}, Res.each f l = .ok r → ∀ a ∈ l, (f a).IsOk
  | a :: l, r, h, b, hb => by
    rw [Res.each, Res.bind_eq_ok] at h
    obtain ⟨x, hx, h⟩ := h
    rw [Res.bind_eq_ok] at h
    obtain ⟨xs, hxs, -⟩ := h
    rcases List.mem_cons.mp hb with rfl | hb
    · exact ⟨x, hx⟩
    · exact each_ok hxs b hb

theorem each_throw {α β : Type} {f : α → Res β} {e : Exc} : ∀ {l : List α}, Res.each f l = .throw e → ∃ a ∈ l, f a = .throw e
  | [], h => by cases h
  | a :: l, h => by
    rw [Res.each] at h
    rcases bind_eq_throw h with h | ⟨x, -, h⟩
    · exact ⟨a, by simp, h⟩
    · rcases bind_eq_throw h with h | ⟨xs, -, h⟩
      · obtain ⟨b, hb, e⟩ := each_throw h
        exact ⟨b, by simp [hb], e⟩
      · cases h

end Res

namespace Eff

theorem bind_ok_inv {σ α β : Type} {x : Eff σ α} {f : α → Eff σ β} {s s' : σ} {b : β} (h : (x >>= f) s = (.ok b, s')) :
    ∃ a s1, x s = (.ok a, s1) ∧ f a s1 = (.ok b, s') := by
  rcases hx : x s with ⟨r, s1⟩
  cases r with
  | ok a => exact ⟨a, s1, rfl, by rwa [bind_of_ok hx] at h⟩
  | throw e => rw [bind_of_throw hx] at h; cases h
  | ub => rw [bind_of_ub hx] at h; cases h

theorem bind_throw_inv {σ α β : Type} {x : Eff σ α} {f : α → Eff σ β} {s s' : σ} {e : Exc} (h : (x >>= f) s = (.throw e, s')) :
    x s = (.throw e, s') ∨ ∃ a s1, x s = (.ok a, s1) ∧ f a s1 = (.throw e, s') := by
  rcases hx : x s with ⟨r, s1⟩
  cases r with
  | ok a => exact .inr ⟨a, s1, rfl, by rwa [bind_of_ok hx] at h⟩
  | throw e' => rw [bind_of_throw hx] at h; cases h; exact .inl rfl
  | ub => rw [bind_of_ub hx] at h; cases h

end Eff

namespace Fdm
variable {F : Type}

/-- A state that differs only in the vectors written by a step. -/
def Like (s s1 : Fdm F) : Prop := ∃ v c, s1 = { s with newPrices := v, b := c } ∧ v.length = s.newPrices.length

theorem Like.refl (s : Fdm F) : Like s s := ⟨s.newPrices, s.b, rfl, rfl⟩

theorem Like.trans {s s1 s2 : Fdm F} (h : Like s s1) (h' : Like s1 s2) : Like s s2 := by
  obtain ⟨v, c, rfl, hv⟩ := h
  obtain ⟨v', c', rfl, hv'⟩ := h'
  exact ⟨v', c', rfl, hv'.trans hv⟩

theorem Frame.like {α : Type} {e : Eff (Fdm F) α} (he : Frame e) {s s1 : Fdm F} {r : Res α} (h : e s = (r, s1)) : Like s s1 := by
  obtain ⟨v, c, h', hv, -⟩ := he s
  rw [h] at h'
  exact ⟨v, c, h', hv⟩

theorem store_ok_inv {i : ℕ} {val : Fdm F → Res F} {s s' : Fdm F} (h : storePrice i val s = (.ok (), s')) : (val s).IsOk := by
  unfold storePrice at h
  split at h
  · rename_i v hv
    rw [Res.bind_eq_ok] at hv
    obtain ⟨x, hx, -⟩ := hv
    exact ⟨x, hx⟩
  · cases h
  · cases h

theorem store_throw_inv {i : ℕ} {val : Fdm F → Res F} {s s' : Fdm F} {e : Exc} (h : storePrice i val s = (.throw e, s')) :
    val s = .throw e := by
  unfold storePrice at h
  split at h
  · cases h
  · rename_i e' hv
    cases h
    rcases Res.bind_eq_throw hv with h | ⟨x, -, h⟩
    · exact h
    · unfold vset at h
      split at h <;> cases h
  · cases h

theorem forJ_ok_inv {body : ℕ → Eff (Fdm F) Unit} (hb : ∀ j, Frame (body j)) : ∀ {n lo : ℕ} {s s' : Fdm F},
    forJ body n lo s = (.ok (), s') → ∀ j, lo ≤ j → j < lo + n → ∃ s1 s2, Like s s1 ∧ body j s1 = (.ok (), s2)
  | 0, lo, s, s', _, j, h1, h2 => by omega
  | n + 1, lo, s, s', h, j, h1, h2 => by
    rw [forJ] at h
    obtain ⟨a, s1, ha, h⟩ := Eff.bind_ok_inv h
    rcases Nat.eq_or_lt_of_le h1 with rfl | h1
    · exact ⟨s, s1, Like.refl s, ha⟩
    · obtain ⟨t1, t2, hl, ht⟩ := forJ_ok_inv hb h j (by omega) (by omega)
      exact ⟨t1, t2, ((hb lo).like ha).trans hl, ht⟩

theorem forJ_throw_inv {body : ℕ → Eff (Fdm F) Unit} (hb : ∀ j, Frame (body j)) {e : Exc} : ∀ {n lo : ℕ} {s s' : Fdm F},
    forJ body n lo s = (.throw e, s') → ∃ j s1, lo ≤ j ∧ j < lo + n ∧ Like s s1 ∧ body j s1 = (.throw e, s')
  | 0, lo, s, s', h => by cases h
  | n + 1, lo, s, s', h => by
    rw [forJ] at h
    rcases Eff.bind_throw_inv h with h | ⟨a, s1, ha, h⟩
    · exact ⟨lo, s, le_rfl, by omega, Like.refl s, h⟩
    · obtain ⟨j, t, h1, h2, hl, ht⟩ := forJ_throw_inv hb h
      exact ⟨j, t, by omega, by omega, ((hb lo).like ha).trans hl, ht⟩

variable [Fl F] [Add F] [Sub F] [Mul F] [Div F] [Neg F]

theorem vget_ok {α : Type} {v : List α} {i : ℕ} {x : α} (h : vget v i = .ok x) : v[i]? = some x := by
  unfold vget at h
  split at h
  · rename_i y hy; cases h; exact hy
  · cases h

theorem vget_not_throw {α : Type} {v : List α} {i : ℕ} {e : Exc} : vget v i ≠ .throw e := by
  unfold vget
  split <;> intro h <;> cases h

theorem sigs_ok {p : Pde F} {s : Fdm F} {t : F} {j : ℕ} {y : F × F} (h : sigs p s t j = .ok y) :
    ∃ x, vget s.xValues j = .ok x ∧ (p.diffusion t x).IsOk ∧ (p.convection t x).IsOk := by
  unfold sigs at h
  obtain ⟨x, hx, h⟩ := Res.bind_eq_ok.mp h
  obtain ⟨d, hd, h⟩ := Res.bind_eq_ok.mp h
  obtain ⟨c, hc, -⟩ := Res.bind_eq_ok.mp h
  exact ⟨x, hx, ⟨d, hd⟩, ⟨c, hc⟩⟩

theorem sigs_throw {p : Pde F} {s : Fdm F} {t : F} {j : ℕ} {e : Exc} (h : sigs p s t j = .throw e) :
    ∃ x, vget s.xValues j = .ok x ∧ (p.diffusion t x = .throw e ∨ p.convection t x = .throw e) := by
  unfold sigs at h
  rcases Res.bind_eq_throw h with h | ⟨x, hx, h⟩
  · exact absurd h vget_not_throw
  rcases Res.bind_eq_throw h with h | ⟨d, -, h⟩
  · exact ⟨x, hx, .inl h⟩
  rcases Res.bind_eq_throw h with h | ⟨c, -, h⟩
  · exact ⟨x, hx, .inr h⟩
  · cases h

theorem explicitValue_ok {p : Pde F} {s : Fdm F} {j : ℕ} (h : (explicitValue p j s).IsOk) :
    ∃ x, vget s.xValues j = .ok x ∧ CoefficientsOk p s.tPrev x := by
  obtain ⟨y, h⟩ := h
  unfold explicitValue at h
  obtain ⟨sg, hs, h⟩ := Res.bind_eq_ok.mp h
  obtain ⟨x, hx, hd, hc⟩ := sigs_ok hs
  obtain ⟨x', hx', h⟩ := Res.bind_eq_ok.mp h
  obtain rfl : x = x' := Res.ok.inj (hx.symm.trans hx')
  obtain ⟨r, hr, h⟩ := Res.bind_eq_ok.mp h
  obtain ⟨_, -, h⟩ := Res.bind_eq_ok.mp h
  obtain ⟨_, -, h⟩ := Res.bind_eq_ok.mp h
  obtain ⟨_, -, h⟩ := Res.bind_eq_ok.mp h
  obtain ⟨f, hf, -⟩ := Res.bind_eq_ok.mp h
  exact ⟨x, hx, hd, hc, ⟨r, hr⟩, ⟨f, hf⟩⟩

theorem explicitValue_throw {p : Pde F} {s : Fdm F} {j : ℕ} {e : Exc} (h : explicitValue p j s = .throw e) :
    ∃ x, vget s.xValues j = .ok x ∧ PdeThrows p s.tPrev x e := by
  unfold explicitValue at h
  rcases Res.bind_eq_throw h with h | ⟨sg, hs, h⟩
  · obtain ⟨x, hx, h⟩ := sigs_throw h
    exact ⟨x, hx, by unfold PdeThrows; tauto⟩
  rcases Res.bind_eq_throw h with h | ⟨x, hx, h⟩
  · exact absurd h vget_not_throw
  rcases Res.bind_eq_throw h with h | ⟨r, -, h⟩
  · exact ⟨x, hx, by unfold PdeThrows; tauto⟩
  rcases Res.bind_eq_throw h with h | ⟨_, -, h⟩
  · exact absurd h vget_not_throw
  rcases Res.bind_eq_throw h with h | ⟨_, -, h⟩
  · exact absurd h vget_not_throw
  rcases Res.bind_eq_throw h with h | ⟨_, -, h⟩
  · exact absurd h vget_not_throw
  rcases Res.bind_eq_throw h with h | ⟨_, -, h⟩
  · exact ⟨x, hx, by unfold PdeThrows; tauto⟩
  · cases h

theorem implicitRow_ok {p : Pde F} {s : Fdm F} {j : ℕ} (h : (implicitRow p s j).IsOk) :
    ∃ x, vget s.xValues j = .ok x ∧ CoefficientsOk p s.tCurr x := by
  obtain ⟨y, h⟩ := h
  unfold implicitRow at h
  obtain ⟨sg, hs, h⟩ := Res.bind_eq_ok.mp h
  obtain ⟨x, hx, hd, hc⟩ := sigs_ok hs
  obtain ⟨x', hx', h⟩ := Res.bind_eq_ok.mp h
  obtain rfl : x = x' := Res.ok.inj (hx.symm.trans hx')
  obtain ⟨r, hr, h⟩ := Res.bind_eq_ok.mp h
  obtain ⟨f, hf, -⟩ := Res.bind_eq_ok.mp h
  exact ⟨x, hx, hd, hc, ⟨r, hr⟩, ⟨f, hf⟩⟩

theorem implicitRow_throw {p : Pde F} {s : Fdm F} {j : ℕ} {e : Exc} (h : implicitRow p s j = .throw e) :
    ∃ x, vget s.xValues j = .ok x ∧ PdeThrows p s.tCurr x e := by
  unfold implicitRow at h
  rcases Res.bind_eq_throw h with h | ⟨sg, hs, h⟩
  · obtain ⟨x, hx, h⟩ := sigs_throw h
    exact ⟨x, hx, by unfold PdeThrows; tauto⟩
  rcases Res.bind_eq_throw h with h | ⟨x, hx, h⟩
  · exact absurd h vget_not_throw
  rcases Res.bind_eq_throw h with h | ⟨r, -, h⟩
  · exact ⟨x, hx, by unfold PdeThrows; tauto⟩
  rcases Res.bind_eq_throw h with h | ⟨_, -, h⟩
  · exact ⟨x, hx, by unfold PdeThrows; tauto⟩
  rcases Res.bind_eq_throw h with h | ⟨_, -, h⟩
  · exact absurd h vget_not_throw
  rcases Res.bind_eq_throw h with h | ⟨_, -, h⟩
  · exact absurd h vget_not_throw
  rcases Res.bind_eq_throw h with h | ⟨_, -, h⟩
  · exact absurd h vget_not_throw
  · cases h

theorem cnRow_ok {p : Pde F} {s : Fdm F} {j : ℕ} (h : (cnRow p s j).IsOk) :
    ∃ x, vget s.xValues j = .ok x ∧ CoefficientsOk p s.tPrev x ∧ CoefficientsOk p s.tCurr x := by
  obtain ⟨y, h⟩ := h
  unfold cnRow at h
  obtain ⟨sg, hs, h⟩ := Res.bind_eq_ok.mp h
  obtain ⟨x, hx, hd, hc⟩ := sigs_ok hs
  obtain ⟨x', hx', h⟩ := Res.bind_eq_ok.mp h
  obtain rfl : x = x' := Res.ok.inj (hx.symm.trans hx')
  obtain ⟨r, hr, h⟩ := Res.bind_eq_ok.mp h
  obtain ⟨f, hf, h⟩ := Res.bind_eq_ok.mp h
  obtain ⟨f', hf', h⟩ := Res.bind_eq_ok.mp h
  obtain ⟨_, -, h⟩ := Res.bind_eq_ok.mp h
  obtain ⟨_, -, h⟩ := Res.bind_eq_ok.mp h
  obtain ⟨sg', hs', h⟩ := Res.bind_eq_ok.mp h
  obtain ⟨x', hx', hd', hc'⟩ := sigs_ok hs'
  obtain rfl : x = x' := Res.ok.inj (hx.symm.trans hx')
  obtain ⟨r', hr', -⟩ := Res.bind_eq_ok.mp h
  exact ⟨x, hx, ⟨hd', hc', ⟨r', hr'⟩, ⟨f', hf'⟩⟩, hd, hc, ⟨r, hr⟩, ⟨f, hf⟩⟩

theorem cnRow_throw {p : Pde F} {s : Fdm F} {j : ℕ} {e : Exc} (h : cnRow p s j = .throw e) :
    ∃ x, vget s.xValues j = .ok x ∧ (PdeThrows p s.tPrev x e ∨ PdeThrows p s.tCurr x e) := by
  unfold cnRow at h
  rcases Res.bind_eq_throw h with h | ⟨sg, hs, h⟩
  · obtain ⟨x, hx, h⟩ := sigs_throw h
    exact ⟨x, hx, by unfold PdeThrows; tauto⟩
  rcases Res.bind_eq_throw h with h | ⟨x, hx, h⟩
  · exact absurd h vget_not_throw
  rcases Res.bind_eq_throw h with h | ⟨r, -, h⟩
  · exact ⟨x, hx, by unfold PdeThrows; tauto⟩
  rcases Res.bind_eq_throw h with h | ⟨_, -, h⟩
  · exact ⟨x, hx, by unfold PdeThrows; tauto⟩
  rcases Res.bind_eq_throw h with h | ⟨_, -, h⟩
  · exact ⟨x, hx, by unfold PdeThrows; tauto⟩
  rcases Res.bind_eq_throw h with h | ⟨_, -, h⟩
  · exact absurd h vget_not_throw
  rcases Res.bind_eq_throw h with h | ⟨_, -, h⟩
  · exact absurd h vget_not_throw
  rcases Res.bind_eq_throw h with h | ⟨_, -, h⟩
  · obtain ⟨x, hx, h⟩ := sigs_throw h
    exact ⟨x, hx, by unfold PdeThrows; tauto⟩
  rcases Res.bind_eq_throw h with h | ⟨_, -, h⟩
  · exact ⟨x, hx, by unfold PdeThrows; tauto⟩
  rcases Res.bind_eq_throw h with h | ⟨_, -, h⟩
  · exact absurd h vget_not_throw
  rcases Res.bind_eq_throw h with h | ⟨_, -, h⟩
  · exact absurd h vget_not_throw
  rcases Res.bind_eq_throw h with h | ⟨_, -, h⟩
  · exact absurd h vget_not_throw
  · cases h

theorem vfront_ok {α : Type} {v : List α} {x : α} (h : vfront v = .ok x) : v.head? = some x := by
  unfold vfront at h
  split at h
  · rename_i y hy; cases h; exact hy
  · cases h

theorem vback_ok {α : Type} {v : List α} {x : α} (h : vback v = .ok x) : v.getLast? = some x := by
  unfold vback at h
  split at h
  · rename_i y hy; cases h; exact hy
  · cases h

theorem vfront_not_throw {α : Type} {v : List α} {e : Exc} : vfront v ≠ .throw e := by
  unfold vfront
  split <;> intro h <;> cases h

theorem vback_not_throw {α : Type} {v : List α} {e : Exc} : vback v ≠ .throw e := by
  unfold vback
  split <;> intro h <;> cases h

/-- The boundary values can be evaluated at the time. -/
def BoundaryOk (p : Pde F) (s : Fdm F) (t : F) : Prop :=
  (∃ x, s.xValues.head? = some x ∧ (p.boundaryLeft t x).IsOk) ∧ ∃ x, s.xValues.getLast? = some x ∧ (p.boundaryRight t x).IsOk

/-- The exception comes from the PDE at a node. -/
def NodeThrows (p : Pde F) (s : Fdm F) (t : F) (e : Exc) : Prop := ∃ x ∈ s.xValues, PdeThrows p t x e

theorem boundary_ok_inv {p : Pde F} {time : Fdm F → F} {s s' : Fdm F} (ht : ∀ s1, Like s s1 → time s1 = time s)
    (h : boundary p time s = (.ok (), s')) : BoundaryOk p s (time s) ∧ Like s s' := by
  have hl := (Frame.boundary p time).like h
  unfold boundary at h
  obtain ⟨_, s1, h1, h⟩ := Eff.bind_ok_inv h
  have l1 := (Frame.store _ _).like h1
  obtain ⟨y, hy⟩ := store_ok_inv h1
  rw [Eff.withState_apply] at h
  obtain ⟨z, hz⟩ := store_ok_inv h
  obtain ⟨x, hx, hy'⟩ := Res.bind_eq_ok.mp hy
  obtain ⟨w, hw, hz'⟩ := Res.bind_eq_ok.mp hz
  rw [ht s1 l1] at hz'
  obtain ⟨v, c, rfl, -⟩ := l1
  exact ⟨⟨⟨x, vfront_ok hx, y, hy'⟩, ⟨w, vback_ok hw, z, hz'⟩⟩, hl⟩

theorem boundary_throw_inv {p : Pde F} {time : Fdm F → F} {s s' : Fdm F} {e : Exc} (ht : ∀ s1, Like s s1 → time s1 = time s)
    (h : boundary p time s = (.throw e, s')) : NodeThrows p s (time s) e := by
  unfold boundary at h
  rcases Eff.bind_throw_inv h with h | ⟨_, s1, h1, h⟩
  · rcases Res.bind_eq_throw (store_throw_inv h) with h | ⟨x, hx, h⟩
    · exact absurd h vfront_not_throw
    · exact ⟨x, List.mem_of_mem_head? (vfront_ok hx), by unfold PdeThrows; tauto⟩
  · have l1 := (Frame.store _ _).like h1
    rw [Eff.withState_apply] at h
    rcases Res.bind_eq_throw (store_throw_inv h) with h | ⟨x, hx, h⟩
    · exact absurd h vback_not_throw
    · rw [ht s1 l1] at h
      obtain ⟨v, c, rfl, -⟩ := l1
      exact ⟨x, List.mem_of_getLast? (vback_ok hx), by unfold PdeThrows; tauto⟩

theorem vget_mem {α : Type} {v : List α} {i : ℕ} {x : α} (h : vget v i = .ok x) : x ∈ v := List.mem_of_getElem? (vget_ok h)

theorem copy_not_throw {sol : List F} {s s' : Fdm F} {e : Exc} : copySolution sol s ≠ (.throw e, s') := by
  intro h
  unfold copySolution at h
  rw [Eff.withState_apply] at h
  obtain ⟨j, s1, -, -, -, h⟩ := forJ_throw_inv (fun _ => Frame.store _ _) h
  exact vget_not_throw (store_throw_inv h)

theorem ofTriplets_not_throw {r c : ℕ} {ts : List (ℕ × ℕ × F)} {e : Exc} : Mat.ofTriplets r c ts ≠ .throw e := by
  unfold Mat.ofTriplets
  split <;> intro h <;> cases h

/-- What the inner nodes need. -/
def InnerOk (p : Pde F) (s : Fdm F) (t : F) : Prop :=
  ∀ j, 1 ≤ j → j + 1 < s.J → ∃ x, s.xValues[j]? = some x ∧ CoefficientsOk p t x

theorem innerExplicit_ok_inv {p : Pde F} {s s' : Fdm F} (h : innerExplicit p s = (.ok (), s')) : InnerOk p s s.tPrev := by
  intro j h1 h2
  unfold innerExplicit at h
  rw [Eff.withState_apply, ulpred_pos (by omega)] at h
  obtain ⟨s1, s2, ⟨v, c, rfl, -⟩, hb⟩ := forJ_ok_inv (fun _ => Frame.store _ _) h j h1 (by omega)
  obtain ⟨x, hx, hc⟩ := explicitValue_ok (store_ok_inv hb)
  exact ⟨x, vget_ok hx, hc⟩

theorem innerExplicit_throw_inv {p : Pde F} {s s' : Fdm F} {e : Exc} (h : innerExplicit p s = (.throw e, s')) : NodeThrows p s s.tPrev e := by
  unfold innerExplicit at h
  rw [Eff.withState_apply] at h
  obtain ⟨j, s1, -, -, ⟨v, c, rfl, -⟩, hb⟩ := forJ_throw_inv (fun _ => Frame.store _ _) h
  obtain ⟨x, hx, hc⟩ := explicitValue_throw (store_throw_inv hb)
  exact ⟨x, vget_mem hx, hc⟩

theorem innerImplicit_ok_inv {solver : MatrixSolver F} {p : Pde F} {s s' : Fdm F} (h : innerImplicit solver p s = (.ok (), s')) :
    InnerOk p s s.tCurr := by
  intro j h1 h2
  unfold innerImplicit at h
  obtain ⟨sol, s1, hr, -⟩ := Eff.bind_ok_inv h
  rw [Eff.read_apply] at hr
  have hr := (Prod.mk.inj hr).1
  unfold implicitSystem at hr
  obtain ⟨rows, hrows, -⟩ := Res.bind_eq_ok.mp hr
  rw [ulpred_pos (by omega)] at hrows
  obtain ⟨x, hx, hc⟩ := implicitRow_ok (Res.each_ok hrows j (by simp only [List.mem_map, List.mem_range]; exact ⟨j - 1, by omega, by omega⟩))
  exact ⟨x, vget_ok hx, hc⟩

theorem innerImplicit_throw_inv {solver : MatrixSolver F} {p : Pde F} {s s' : Fdm F} {e : Exc} (h : innerImplicit solver p s = (.throw e, s')) :
    NodeThrows p s s.tCurr e ∨ ∃ A b, solver A b = .throw e := by
  unfold innerImplicit at h
  rcases Eff.bind_throw_inv h with h | ⟨sol, s1, -, h⟩
  · rw [Eff.read_apply] at h
    have h := (Prod.mk.inj h).1
    unfold implicitSystem at h
    rcases Res.bind_eq_throw h with h | ⟨rows, -, h⟩
    · obtain ⟨j, -, hj⟩ := Res.each_throw h
      obtain ⟨x, hx, hc⟩ := implicitRow_throw hj
      exact .inl ⟨x, vget_mem hx, hc⟩
    rcases Res.bind_eq_throw h with h | ⟨A, -, h⟩
    · exact absurd h ofTriplets_not_throw
    · exact .inr ⟨A, _, h⟩
  · exact absurd h copy_not_throw

theorem cnLoop_ok_inv {solver : MatrixSolver F} {p : Pde F} : ∀ {n lo : ℕ} {ts : List (ℕ × ℕ × F)} {s s' : Fdm F},
    cnLoop solver p n lo ts s = (.ok (), s') → ∀ j, lo ≤ j → j < lo + n → ∃ s1, Like s s1 ∧ (cnRow p s1 j).IsOk
  | 0, lo, ts, s, s', _, j, h1, h2 => by omega
  | n + 1, lo, ts, s, s', h, j, h1, h2 => by
    rw [cnLoop] at h
    obtain ⟨a, s1, ha, h⟩ := Eff.bind_ok_inv h
    rcases Nat.eq_or_lt_of_le h1 with rfl | h1
    · unfold cnIteration at ha
      obtain ⟨row, s2, hr, -⟩ := Eff.bind_ok_inv ha
      rw [Eff.read_apply] at hr
      exact ⟨s, Like.refl s, row, (Prod.mk.inj hr).1⟩
    · obtain ⟨t1, hl, ht⟩ := cnLoop_ok_inv h j (by omega) (by omega)
      exact ⟨t1, ((Frame.cnIteration _ _ _ _).like ha).trans hl, ht⟩

theorem cnLoop_throw_inv {solver : MatrixSolver F} {p : Pde F} {e : Exc} : ∀ {n lo : ℕ} {ts : List (ℕ × ℕ × F)} {s s' : Fdm F},
    cnLoop solver p n lo ts s = (.throw e, s') → (∃ j s1, Like s s1 ∧ cnRow p s1 j = .throw e) ∨ ∃ A b, solver A b = .throw e
  | 0, lo, ts, s, s', h => by cases h
  | n + 1, lo, ts, s, s', h => by
    rw [cnLoop] at h
    rcases Eff.bind_throw_inv h with h | ⟨a, s1, ha, h⟩
    · unfold cnIteration at h
      rcases Eff.bind_throw_inv h with h | ⟨row, s2, -, h⟩
      · rw [Eff.read_apply] at h
        exact .inl ⟨lo, s, Like.refl s, (Prod.mk.inj h).1⟩
      rcases Eff.bind_throw_inv h with h | ⟨_, s3, -, h⟩
      · unfold Fdm.storeB vset at h
        split at h
        · cases h
        · rename_i hv; split at hv <;> cases hv
        · cases h
      rcases Eff.bind_throw_inv h with h | ⟨sol, s4, -, h⟩
      · rw [Eff.read_apply] at h
        have h := (Prod.mk.inj h).1
        unfold cnSystem at h
        rcases Res.bind_eq_throw h with h | ⟨A, -, h⟩
        · exact absurd h ofTriplets_not_throw
        · exact .inr ⟨A, _, h⟩
      rcases Eff.bind_throw_inv h with h | ⟨_, s5, -, h⟩
      · exact absurd h copy_not_throw
      · cases h
    · rcases cnLoop_throw_inv h with ⟨j, t, hl, ht⟩ | h
      · exact .inl ⟨j, t, ((Frame.cnIteration _ _ _ _).like ha).trans hl, ht⟩
      · exact .inr h

theorem innerCN_ok_inv {solver : MatrixSolver F} {p : Pde F} {s s' : Fdm F} (h : innerCN solver p s = (.ok (), s')) :
    InnerOk p s s.tPrev ∧ InnerOk p s s.tCurr := by
  have key : ∀ j, 1 ≤ j → j + 1 < s.J → ∃ x, s.xValues[j]? = some x ∧ CoefficientsOk p s.tPrev x ∧ CoefficientsOk p s.tCurr x := by
    intro j h1 h2
    unfold innerCN at h
    rw [Eff.withState_apply, ulpred_pos (by omega)] at h
    obtain ⟨s1, ⟨v, c, rfl, -⟩, hr⟩ := cnLoop_ok_inv h j h1 (by omega)
    obtain ⟨x, hx, hc⟩ := cnRow_ok hr
    exact ⟨x, vget_ok hx, hc⟩
  exact ⟨fun j h1 h2 => (key j h1 h2).imp fun x hx => ⟨hx.1, hx.2.1⟩, fun j h1 h2 => (key j h1 h2).imp fun x hx => ⟨hx.1, hx.2.2⟩⟩

theorem innerCN_throw_inv {solver : MatrixSolver F} {p : Pde F} {s s' : Fdm F} {e : Exc} (h : innerCN solver p s = (.throw e, s')) :
    NodeThrows p s s.tPrev e ∨ NodeThrows p s s.tCurr e ∨ ∃ A b, solver A b = .throw e := by
  unfold innerCN at h
  rw [Eff.withState_apply] at h
  rcases cnLoop_throw_inv h with ⟨j, s1, ⟨v, c, rfl, -⟩, hr⟩ | h
  · obtain ⟨x, hx, hc | hc⟩ := cnRow_throw hr
    · exact .inl ⟨x, vget_mem hx, hc⟩
    · exact .inr (.inl ⟨x, vget_mem hx, hc⟩)
  · exact .inr (.inr h)

/-- A step that returns evaluated everything the scheme needs. -/
theorem step_ok_inv {sc : Scheme F} {p : Pde F} {s s' : Fdm F} (h : step sc p s = (.ok (), s')) :
    BoundaryOk p s (boundaryTime sc s.tPrev (s.tPrev + s.dt)) ∧
      ∀ τ, CoefficientTime sc s.tPrev (s.tPrev + s.dt) τ → InnerOk p s τ := by
  obtain ⟨v, c, hm, -⟩ := step_ok h
  unfold march at hm
  cases sc with
  | explicit =>
    obtain ⟨_, s1, hb, hi⟩ := Eff.bind_ok_inv hm
    obtain ⟨hb', v', c', rfl, -⟩ := boundary_ok_inv (by rintro _ ⟨v, c, rfl, -⟩; rfl) hb
    have hi' := innerExplicit_ok_inv hi
    exact ⟨hb', by rintro τ rfl; exact hi'⟩
  | implicit solver =>
    obtain ⟨_, s1, hb, hi⟩ := Eff.bind_ok_inv hm
    obtain ⟨hb', v', c', rfl, -⟩ := boundary_ok_inv (by rintro _ ⟨v, c, rfl, -⟩; rfl) hb
    have hi' := innerImplicit_ok_inv hi
    exact ⟨hb', by rintro τ rfl; exact hi'⟩
  | crankNicolson solver =>
    obtain ⟨_, s1, hb, hi⟩ := Eff.bind_ok_inv hm
    obtain ⟨hb', v', c', rfl, -⟩ := boundary_ok_inv (by rintro _ ⟨v, c, rfl, -⟩; rfl) hb
    obtain ⟨h1, h2⟩ := innerCN_ok_inv hi
    exact ⟨hb', by rintro τ (rfl | rfl); exacts [h1, h2]⟩

/-- A step throws only what the PDE or the matrix solver throws. -/
theorem step_throw_inv {sc : Scheme F} {p : Pde F} {s s' : Fdm F} {e : Exc} (h : step sc p s = (.throw e, s')) :
    (∃ τ, (CoefficientTime sc s.tPrev (s.tPrev + s.dt) τ ∨ τ = boundaryTime sc s.tPrev (s.tPrev + s.dt)) ∧ NodeThrows p s τ e) ∨ SolverThrows sc e := by
  unfold step at h
  rw [Eff.bind_of_ok (Eff.modify_apply _ _)] at h
  rcases Eff.bind_throw_inv h with h | ⟨_, s1, -, h⟩
  · unfold march at h
    cases sc with
    | explicit =>
      rcases Eff.bind_throw_inv h with h | ⟨_, s1, hb, hi⟩
      · have hi' := boundary_throw_inv (by rintro _ ⟨v, c, rfl, -⟩; rfl) h
        exact .inl ⟨_, .inr rfl, hi'⟩
      · obtain ⟨v, c, rfl, -⟩ := (Frame.boundary _ _).like hb
        have hi' := innerExplicit_throw_inv hi
        exact .inl ⟨_, .inl rfl, hi'⟩
    | implicit solver =>
      rcases Eff.bind_throw_inv h with h | ⟨_, s1, hb, hi⟩
      · have hi' := boundary_throw_inv (by rintro _ ⟨v, c, rfl, -⟩; rfl) h
        exact .inl ⟨_, .inr rfl, hi'⟩
      · obtain ⟨v, c, rfl, -⟩ := (Frame.boundary _ _).like hb
        rcases innerImplicit_throw_inv hi with h | h
        · exact .inl ⟨_, .inl rfl, h⟩
        · exact .inr h
    | crankNicolson solver =>
      rcases Eff.bind_throw_inv h with h | ⟨_, s1, hb, hi⟩
      · have hi' := boundary_throw_inv (by rintro _ ⟨v, c, rfl, -⟩; rfl) h
        exact .inl ⟨_, .inr rfl, hi'⟩
      · obtain ⟨v, c, rfl, -⟩ := (Frame.boundary _ _).like hb
        rcases innerCN_throw_inv hi with h | h | h
        · exact .inl ⟨_, .inl (.inl rfl), h⟩
        · exact .inl ⟨_, .inl (.inr rfl), h⟩
        · exact .inr h
  · cases h

end Fdm
end Verif
