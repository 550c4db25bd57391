import Verif.Model.Fdm
import Mathlib.Tactic.Ring
import Mathlib.Tactic.Positivity
import Mathlib.Data.List.Basic

/-!
# Lemmas about the finite difference solvers (any arithmetic)
-/

namespace Verif
namespace Fdm
set_option linter.unusedSectionVars false

variable {F : Type}

/-- The vector of the first `n` values of `g`. -/
def vec {α : Type} (n : ℕ) (g : ℕ → α) : List α := (List.range n).map g

@[simp] theorem vec_length {α : Type} (n : ℕ) (g : ℕ → α) : (vec n g).length = n := by simp [vec]

theorem vec_getElem? {α : Type} {n i : ℕ} (g : ℕ → α) (h : i < n) : (vec n g)[i]? = some (g i) := by
  simp [vec, h]

theorem vget_vec {α : Type} {n i : ℕ} (g : ℕ → α) (h : i < n) : vget (vec n g) i = .ok (g i) := by
  simp [vget, vec_getElem? g h]

theorem vec_congr {α : Type} {n : ℕ} {g g' : ℕ → α} (h : ∀ i < n, g i = g' i) : vec n g = vec n g' := by
  apply List.map_congr_left
  intro i hi
  exact h i (List.mem_range.mp hi)

theorem vec_set {α : Type} (n i : ℕ) (g : ℕ → α) (x : α) :
    (vec n g).set i x = vec n (fun k => if k = i then x else g k) := by
  apply List.ext_getElem
  · simp
  · intro k h1 h2
    simp only [List.getElem_set, vec, List.getElem_map, List.getElem_range]
    by_cases h : i = k
    · simp [h]
    · simp [h, Ne.symm h]

theorem eq_vec {α : Type} (d : α) (v : List α) : v = vec v.length (fun i => v.getD i d) := by
  apply List.ext_getElem
  · simp
  · intro k h1 h2
    simp [vec, List.getD, h1]

theorem vec_getD {α : Type} {n i : ℕ} (d : α) (g : ℕ → α) (h : i < n) : (vec n g).getD i d = g i := by
  simp [List.getD, vec_getElem? g h]

theorem vfront_vec {α : Type} {n : ℕ} (g : ℕ → α) (h : 0 < n) : vfront (vec n g) = .ok (g 0) := by
  have : (vec n g).head? = some (g 0) := by
    rw [List.head?_eq_getElem?, vec_getElem? g h]
  simp [vfront, this]

theorem vback_vec {α : Type} {n : ℕ} (g : ℕ → α) (h : 0 < n) : vback (vec n g) = .ok (g (n - 1)) := by
  have : (vec n g).getLast? = some (g (n - 1)) := by
    rw [List.getLast?_eq_getElem?, vec_length, vec_getElem? g (by omega)]
  simp [vback, this]

theorem vset_vec {α : Type} {n i : ℕ} (g : ℕ → α) (x : α) (h : i < n) :
    vset (vec n g) i x = .ok (vec n (fun k => if k = i then x else g k)) := by
  simp [vset, h, vec_set]

theorem each_vec {α β : Type} {f : α → Res β} {g : ℕ → α} {w : ℕ → β} {n : ℕ} (h : ∀ i < n, f (g i) = .ok (w i)) :
    Res.each f (vec n g) = .ok (vec n w) := by
  have key : ∀ l : List ℕ, (∀ i ∈ l, f (g i) = .ok (w i)) → Res.each f (l.map g) = .ok (l.map w) := by
    intro l
    induction l with
    | nil => intro _; rfl
    | cons a l ih =>
      intro hl
      simp only [List.map_cons, Res.each]
      rw [hl a (by simp), Res.bind_ok, ih (fun i hi => hl i (by simp [hi])), Res.bind_ok]
      rfl
  exact key _ fun i hi => h i (List.mem_range.mp hi)

theorem ulpred_pos {n : ℕ} (h : 0 < n) : ulpred n = n - 1 := by
  simp [ulpred, Nat.pos_iff_ne_zero.mp h]

/-! ## What a time step does not change -/

/-- The effect changes only `newPrices` (not its length) and `b`. -/
def Frame {α : Type} (e : Eff (Fdm F) α) : Prop :=
  ∀ s, ∃ v c, (e s).2 = { s with newPrices := v, b := c } ∧ v.length = s.newPrices.length ∧ c.length = s.b.length

theorem Frame.bind {α β : Type} {e : Eff (Fdm F) α} {f : α → Eff (Fdm F) β} (he : Frame e) (hf : ∀ a, Frame (f a)) :
    Frame (e >>= f) := by
  intro s
  obtain ⟨v, c, h, hv, hc⟩ := he s
  rw [Eff.bind_apply]
  rcases hx : e s with ⟨r, s'⟩
  rw [hx] at h
  simp only at h
  subst h
  cases r with
  | ok a =>
    obtain ⟨v', c', h', hv', hc'⟩ := hf a { s with newPrices := v, b := c }
    exact ⟨v', c', h', hv'.trans hv, hc'.trans hc⟩
  | throw e => exact ⟨v, c, rfl, hv, hc⟩
  | ub => exact ⟨v, c, rfl, hv, hc⟩

theorem Frame.read {α : Type} (f : Fdm F → Res α) : Frame (Eff.read f) :=
  fun s => ⟨s.newPrices, s.b, rfl, rfl, rfl⟩

theorem Frame.pure {α : Type} (a : α) : Frame (pure a : Eff (Fdm F) α) :=
  fun s => ⟨s.newPrices, s.b, rfl, rfl, rfl⟩

theorem Frame.atState {α : Type} {e : Fdm F → Eff (Fdm F) α} (h : ∀ s, Frame (e s)) : Frame (Eff.withState e) :=
  fun s => h s s

theorem vset_length {α : Type} {v v' : List α} {i : ℕ} {x : α} (h : vset v i x = .ok v') : v'.length = v.length := by
  unfold vset at h
  split at h
  · cases h; simp
  · cases h

theorem Frame.store (i : ℕ) (val : Fdm F → Res F) : Frame (storePrice i val) := by
  intro s
  unfold storePrice
  split
  · rename_i v h
    rw [Res.bind_eq_ok] at h
    obtain ⟨x, -, h⟩ := h
    exact ⟨v, s.b, rfl, vset_length h, rfl⟩
  · exact ⟨s.newPrices, s.b, rfl, rfl, rfl⟩
  · exact ⟨s.newPrices, s.b, rfl, rfl, rfl⟩

theorem Frame.forJ {body : ℕ → Eff (Fdm F) Unit} (h : ∀ j, Frame (body j)) : ∀ n j, Frame (forJ body n j)
  | 0, _ => Frame.pure ()
  | n + 1, j => Frame.bind (h j) fun _ => Frame.forJ h n (j + 1)

variable [Fl F] [Add F] [Sub F] [Mul F] [Div F] [Neg F]

theorem Frame.boundary (p : Pde F) (time : Fdm F → F) : Frame (boundary p time) :=
  Frame.bind (Frame.store _ _) fun _ => Frame.atState fun _ => Frame.store _ _

theorem Frame.copy (sol : List F) : Frame (copySolution sol) :=
  Frame.atState fun _ => Frame.forJ (fun _ => Frame.store _ _) _ _

theorem Frame.storeB (i : ℕ) (x : F) : Frame (storeB i x) := by
  intro s
  unfold Fdm.storeB
  split
  · rename_i c h
    exact ⟨s.newPrices, c, rfl, rfl, vset_length h⟩
  · exact ⟨s.newPrices, s.b, rfl, rfl, rfl⟩
  · exact ⟨s.newPrices, s.b, rfl, rfl, rfl⟩

theorem Frame.cnIteration (solver : MatrixSolver F) (p : Pde F) (j : ℕ) (ts : List (ℕ × ℕ × F)) :
    Frame (cnIteration solver p j ts) := by
  refine Frame.bind (Frame.read _) fun row => Frame.bind (Frame.storeB _ _) fun _ => Frame.bind (Frame.read _) fun sol =>
    Frame.bind (Frame.copy sol) fun _ => Frame.pure _

theorem Frame.cnLoop (solver : MatrixSolver F) (p : Pde F) : ∀ n j ts, Frame (cnLoop solver p n j ts)
  | 0, _, _ => Frame.pure ()
  | n + 1, j, ts => Frame.bind (Frame.cnIteration solver p j ts) fun ts' => Frame.cnLoop solver p n (j + 1) ts'

theorem Frame.march (sc : Scheme F) (p : Pde F) : Frame (march sc p) := by
  cases sc with
  | explicit =>
    exact Frame.bind (Frame.boundary _ _) fun _ =>
      Frame.atState fun _ => Frame.forJ (fun _ => Frame.store _ _) _ _
  | implicit solver =>
    exact Frame.bind (Frame.boundary _ _) fun _ => Frame.bind (Frame.read _) fun sol => Frame.copy sol
  | crankNicolson solver =>
    exact Frame.bind (Frame.boundary _ _) fun _ =>
      Frame.atState fun _ => Frame.cnLoop _ _ _ _ _

/-! ## Storing into `newPrices` -/

theorem store_ok {val : Fdm F → Res F} {s : Fdm F} {n i : ℕ} {g : ℕ → F} {x : F} (hn : s.newPrices = vec n g) (hi : i < n)
    (hv : val s = .ok x) :
    storePrice i val s = (.ok (), { s with newPrices := vec n (fun k => if k = i then x else g k) }) := by
  simp [storePrice, hv, hn, vset_vec g x hi]

/-- A loop of stores whose values do not depend on `newPrices`. -/
theorem forJ_store {val : ℕ → Fdm F → Res F} {w : ℕ → F} {N : ℕ} (s : Fdm F) :
    ∀ (n lo : ℕ) (g : ℕ → F), lo + n ≤ N →
      (∀ j, lo ≤ j → j < lo + n → ∀ v : List F, v.length = N → val j { s with newPrices := v } = .ok (w j)) →
      forJ (fun j => storePrice j (val j)) n lo { s with newPrices := vec N g } =
        (.ok (), { s with newPrices := vec N (fun i => if lo ≤ i ∧ i < lo + n then w i else g i) })
  | 0, lo, g, _, _ => by
    have : vec N (fun i => if lo ≤ i ∧ i < lo + 0 then w i else g i) = vec N g := by
      apply vec_congr; intro i _; rw [if_neg (by omega)]
    rw [this]; rfl
  | n + 1, lo, g, hN, h => by
    rw [forJ, Eff.bind_of_ok (store_ok (s := { s with newPrices := vec N g }) (x := w lo) rfl (by omega)
      (h lo le_rfl (by omega) _ (by simp)))]
    have := forJ_store (val := val) (w := w) (N := N) s n (lo + 1) (fun k => if k = lo then w lo else g k) (by omega)
      (fun j h1 h2 v hv => h j (by omega) (by omega) v hv)
    dsimp only at this ⊢
    rw [this]
    refine congrArg (fun v => (Res.ok (), { s with newPrices := v })) (vec_congr ?_)
    intro i _
    by_cases h1 : i = lo
    · subst h1
      rw [if_neg (by omega), if_pos rfl, if_pos (by omega)]
    · by_cases h2 : lo + 1 ≤ i ∧ i < lo + 1 + n
      · rw [if_pos h2, if_pos (by omega)]
      · rw [if_neg h2, if_neg h1, if_neg (by omega)]

/-- The boundary values. -/
theorem boundary_ok {p : Pde F} {time : Fdm F → F} {s : Fdm F} {N : ℕ} {g xs : ℕ → F} {l r : F} (hN : 2 ≤ N)
    (hn : s.newPrices = vec N g) (hx : s.xValues = vec N xs)
    (ht : ∀ v : List F, time { s with newPrices := v } = time s)
    (hl : p.boundaryLeft (time s) (xs 0) = .ok l) (hr : p.boundaryRight (time s) (xs (N - 1)) = .ok r) :
    boundary p time s =
      (.ok (), { s with newPrices := vec N (fun k => if k = N - 1 then r else if k = 0 then l else g k) }) := by
  unfold boundary
  rw [Eff.bind_of_ok (store_ok (x := l) hn (by omega) (by simp [hx, vfront_vec xs (show 0 < N by omega), hl]))]
  rw [Eff.withState_apply, vec_length]
  exact store_ok (s := { s with newPrices := _ }) rfl (by omega) (by simp only [ht]; simp [hx, vback_vec xs (show 0 < N by omega), hr])

/-! ## The time loop -/

/-- A successful step: only the vectors change, and the times move on by `dt`. -/
theorem step_ok {sc : Scheme F} {p : Pde F} {s s' : Fdm F} (h : step sc p s = (.ok (), s')) :
    ∃ v c, march sc p { s with tCurr := s.tPrev + s.dt } =
        (.ok (), { s with tCurr := s.tPrev + s.dt, newPrices := v, b := c }) ∧
      v.length = s.newPrices.length ∧ c.length = s.b.length ∧
      s' = { s with tCurr := s.tPrev + s.dt, tPrev := s.tPrev + s.dt, newPrices := v, oldPrices := v, b := c } := by
  unfold step at h
  rw [Eff.bind_of_ok (Eff.modify_apply _ _)] at h
  obtain ⟨v, c, hf, hv, hc⟩ := Frame.march sc p { s with tCurr := s.tPrev + s.dt }
  rcases hm : march sc p { s with tCurr := s.tPrev + s.dt } with ⟨r, s1⟩
  rw [hm] at hf
  dsimp only at hf
  subst hf
  cases r with
  | ok a =>
    rw [Eff.bind_of_ok hm, Eff.modify_apply] at h
    exact ⟨v, c, rfl, hv, hc, (Prod.mk.inj h).2.symm⟩
  | throw e =>
    rw [Eff.bind_of_throw hm] at h
    cases h
  | ub =>
    rw [Eff.bind_of_ub hm] at h
    cases h

theorem step_of_march {sc : Scheme F} {p : Pde F} {s s1 : Fdm F}
    (h : march sc p { s with tCurr := s.tPrev + s.dt } = (.ok (), s1)) :
    step sc p s = (.ok (), { s1 with oldPrices := s1.newPrices, tPrev := s1.tCurr }) := by
  unfold step
  rw [Eff.bind_of_ok (Eff.modify_apply _ _), Eff.bind_of_ok h, Eff.modify_apply]

/-- A loop that ends normally went through states connected by the body. -/
theorem forN_states {σ : Type} {e : Eff σ Unit} : ∀ (n : ℕ) (s s' : σ), Eff.forN (fun _ => e) n () s = (.ok (), s') →
    ∃ st : ℕ → σ, st 0 = s ∧ st n = s' ∧ ∀ k < n, e (st k) = (.ok (), st (k + 1))
  | 0, s, s', h => ⟨fun _ => s, rfl, (Prod.mk.inj h).2, fun k hk => by omega⟩
  | n + 1, s, s', h => by
    rw [Eff.forN] at h
    rcases he : e s with ⟨r, s1⟩
    cases r with
    | ok a =>
      rw [Eff.bind_of_ok he] at h
      obtain ⟨st, h0, hn, hk⟩ := forN_states n s1 s' h
      refine ⟨fun k => if k = 0 then s else st (k - 1), by simp, by simpa using hn, ?_⟩
      intro k hkn
      cases k with
      | zero => simp [h0, he]
      | succ k => simpa using hk k (by omega)
    | throw x => rw [Eff.bind_of_throw he] at h; cases h
    | ub => rw [Eff.bind_of_ub he] at h; cases h

theorem forN_of_states {σ : Type} {e : Eff σ Unit} : ∀ (n : ℕ) (st : ℕ → σ), (∀ k < n, e (st k) = (.ok (), st (k + 1))) →
    Eff.forN (fun _ => e) n () (st 0) = (.ok (), st n)
  | 0, _, _ => rfl
  | n + 1, st, h => by
    rw [Eff.forN, Eff.bind_of_ok (h 0 (by omega))]
    exact forN_of_states n (fun k => st (k + 1)) (fun k hk => h (k + 1) (by omega))

/-- With exact arithmetic the number of steps is determined by the times. -/
theorem timeLoop_real (sc : Scheme ℝ) (p : Pde ℝ) : ∀ (n fuel : ℕ) (s : Fdm ℝ), s.tPrev = s.tCurr → 0 < s.dt →
    s.tDom = s.tCurr + n * s.dt → n < fuel → timeLoop sc p fuel s = Eff.forN (fun _ => step sc p) n () s
  | 0, fuel + 1, s, _, _, hD, _ => by
    rw [timeLoop, Eff.withState_apply, if_neg (by simp [hD])]
    rfl
  | n + 1, fuel + 1, s, hp, hdt, hD, hf => by
    have hpos : 0 < ((n : ℝ) + 1) * s.dt := by positivity
    push_cast at hD
    rw [timeLoop, Eff.withState_apply, if_pos (by simp [hD, hpos]), Eff.forN]
    rcases he : step sc p s with ⟨r, s1⟩
    cases r with
    | ok a =>
      rw [Eff.bind_of_ok he, Eff.bind_of_ok he]
      obtain ⟨v, c, -, -, -, rfl⟩ := step_ok he
      refine timeLoop_real sc p n fuel _ rfl hdt ?_ (by omega)
      simp only [hD, hp]
      ring
    | throw x => rw [Eff.bind_of_throw he, Eff.bind_of_throw he]
    | ub => rw [Eff.bind_of_ub he, Eff.bind_of_ub he]

end Fdm
end Verif
