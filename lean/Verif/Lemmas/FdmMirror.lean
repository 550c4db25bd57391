import Verif.Lemmas.FdmRetry

/-!
# Steps that fail do so whatever the prices are

For a PDE whose coefficients do not depend on the time, and a matrix solver whose failures depend on the matrix only.
-/

namespace Verif
open Spec

namespace Fdm
variable {F : Type}

/-- The states agree but for the times and the values in the vectors of prices. -/
def Alike (s t : Fdm F) : Prop := t.J = s.J ∧ t.dx = s.dx ∧ t.dx2 = s.dx2 ∧ t.dt = s.dt ∧ t.xValues = s.xValues ∧
  t.newPrices.length = s.newPrices.length ∧ t.oldPrices.length = s.oldPrices.length ∧ t.b.length = s.b.length

theorem vset_mirror {α : Type} {v v' w : List α} {i : ℕ} {x y : α} (h : vset v i x = .ok v') (hw : w.length = v.length) : ∃ w', vset w i y = .ok w' := by
  unfold vset at h ⊢
  split at h
  · exact ⟨_, if_pos (by omega)⟩
  · cases h

theorem vget_mirror {α : Type} {v w : List α} {i : ℕ} {x : α} (h : vget v i = .ok x) (hw : w.length = v.length) : ∃ y, vget w i = .ok y := by
  have h := vget_ok h
  have hi : i < w.length := by
    rw [hw]
    exact (List.getElem?_eq_some_iff.mp h).1
  exact ⟨w[i], by unfold vget; rw [List.getElem?_eq_getElem hi]⟩

theorem store_mirror {i i' : ℕ} {val val' : Fdm F → Res F} {s t s' : Fdm F} {a : Unit} (h : Alike s t) (hi : i' = i) (hv : (val s).IsOk → (val' t).IsOk)
    (hs : storePrice i val s = (.ok a, s')) : ∃ t', storePrice i' val' t = (.ok (), t') ∧ Alike s' t' := by
  subst hi
  obtain ⟨h1, h2, h3, h4, h5, h6, h7, h8⟩ := h
  unfold storePrice at hs
  split at hs
  · rename_i w hw
    cases hs
    obtain ⟨x, hx, hw⟩ := Res.bind_eq_ok.mp hw
    obtain ⟨y, hy⟩ := hv ⟨x, hx⟩
    obtain ⟨w', hw'⟩ := vset_mirror (y := y) hw h6
    refine ⟨{ t with newPrices := w' }, ?_, h1, h2, h3, h4, h5, ?_, h7, h8⟩
    · unfold storePrice
      rw [hy, Res.bind_ok, hw']
    · dsimp only
      rw [vset_length hw', vset_length hw, h6]
  · cases hs
  · cases hs

theorem forJ_mirror {val val' : ℕ → Fdm F → Res F} (hv : ∀ j s t, Alike s t → (val j s).IsOk → (val' j t).IsOk) : ∀ {n lo : ℕ} {s t s' : Fdm F},
    Alike s t → forJ (fun j => storePrice j (val j)) n lo s = (.ok (), s') → ∃ t', forJ (fun j => storePrice j (val' j)) n lo t = (.ok (), t') ∧ Alike s' t'
  | 0, lo, s, t, s', h, hs => by
    cases hs
    exact ⟨t, rfl, h⟩
  | n + 1, lo, s, t, s', h, hs => by
    rw [forJ] at hs
    obtain ⟨_, s1, h1, h2⟩ := Eff.bind_ok_inv hs
    obtain ⟨t1, g1, g2⟩ := store_mirror h rfl (hv lo s t h) h1
    obtain ⟨t', g3, g4⟩ := forJ_mirror hv g2 h2
    exact ⟨t', by rw [forJ, Eff.bind_of_ok g1, g3], g4⟩

theorem boundary_mirror {p : Pde F} (hp : Steady p) {time time' : Fdm F → F} {s t s' : Fdm F} (h : Alike s t) (hs : boundary p time s = (.ok (), s')) :
    ∃ t', boundary p time' t = (.ok (), t') ∧ Alike s' t' := by
  unfold boundary at hs ⊢
  obtain ⟨_, s1, h1, h2⟩ := Eff.bind_ok_inv hs
  have left : ∀ s t : Fdm F, Alike s t → (do let x ← vfront s.xValues; p.boundaryLeft (time s) x : Res F).IsOk →
      (do let x ← vfront t.xValues; p.boundaryLeft (time' t) x : Res F).IsOk := by
    rintro s t ⟨-, -, -, -, h5, -⟩ ⟨y, hy⟩
    obtain ⟨x, hx, hy⟩ := Res.bind_eq_ok.mp hy
    obtain ⟨z, hz⟩ := hp.left (time s) (time' t) x ⟨y, hy⟩
    exact ⟨z, by rw [h5, hx, Res.bind_ok, hz]⟩
  have right : ∀ s t : Fdm F, Alike s t → (do let x ← vback s.xValues; p.boundaryRight (time s) x : Res F).IsOk →
      (do let x ← vback t.xValues; p.boundaryRight (time' t) x : Res F).IsOk := by
    rintro s t ⟨-, -, -, -, h5, -⟩ ⟨y, hy⟩
    obtain ⟨x, hx, hy⟩ := Res.bind_eq_ok.mp hy
    obtain ⟨z, hz⟩ := hp.right (time s) (time' t) x ⟨y, hy⟩
    exact ⟨z, by rw [h5, hx, Res.bind_ok, hz]⟩
  obtain ⟨t1, g1, g2⟩ := store_mirror (val' := fun t => do let x ← vfront t.xValues; p.boundaryLeft (time' t) x) h rfl (left s t h) h1
  rw [Eff.bind_of_ok g1]
  rw [Eff.withState_apply] at h2 ⊢
  exact store_mirror (val' := fun t => do let x ← vback t.xValues; p.boundaryRight (time' t) x) g2 (by rw [g2.2.2.2.2.2.1]) (right s1 t1 g2) h2

variable [Fl F] [Add F] [Sub F] [Mul F] [Div F] [Neg F]

theorem sigs_alike {p : Pde F} (hp : Steady p) {s t : Fdm F} (h : Alike s t) (τ τ' : F) (j : ℕ) : sigs p t τ' j = sigs p s τ j := by
  obtain ⟨-, h2, h3, h4, h5, -⟩ := h
  unfold sigs
  rw [h2, h4, h5]
  have e1 : p.diffusion τ' = p.diffusion τ := funext fun x => hp.diffusion _ _ _
  have e2 : p.convection τ' = p.convection τ := funext fun x => hp.convection _ _ _
  rw [e1, e2]

theorem explicitValue_mirror {p : Pde F} (hp : Steady p) (j : ℕ) (s t : Fdm F) (h : Alike s t) (hs : (explicitValue p j s).IsOk) : (explicitValue p j t).IsOk := by
  obtain ⟨y, hy⟩ := hs
  have hsig := sigs_alike hp h s.tPrev t.tPrev j
  obtain ⟨h1, h2, h3, h4, h5, h6, h7, h8⟩ := h
  unfold explicitValue at hy ⊢
  obtain ⟨⟨d, c⟩, hd, hy⟩ := Res.bind_eq_ok.mp hy
  dsimp only at hy
  obtain ⟨x, hx, hy⟩ := Res.bind_eq_ok.mp hy
  obtain ⟨r, hr, hy⟩ := Res.bind_eq_ok.mp hy
  obtain ⟨o0, ho0, hy⟩ := Res.bind_eq_ok.mp hy
  obtain ⟨o1, ho1, hy⟩ := Res.bind_eq_ok.mp hy
  obtain ⟨o2, ho2, hy⟩ := Res.bind_eq_ok.mp hy
  obtain ⟨f, hf, hy⟩ := Res.bind_eq_ok.mp hy
  obtain ⟨q0, e0⟩ := vget_mirror ho0 h7
  obtain ⟨q1, e1⟩ := vget_mirror ho1 h7
  obtain ⟨q2, e2⟩ := vget_mirror ho2 h7
  obtain ⟨f', hf'⟩ := hp.rightHandSide s.tPrev t.tPrev x ⟨f, hf⟩
  rw [hsig, hd, Res.bind_ok]
  dsimp only
  rw [h5, hx, Res.bind_ok, hp.reaction t.tPrev s.tPrev, hr, Res.bind_ok, e0, Res.bind_ok, e1, Res.bind_ok, e2, Res.bind_ok, hf', Res.bind_ok]
  exact ⟨_, rfl⟩

theorem implicitRow_mirror {p : Pde F} (hp : Steady p) {s t : Fdm F} (h : Alike s t) {j : ℕ} {row : List (ℕ × ℕ × F) × F} (hs : implicitRow p s j = .ok row) :
    ∃ c, implicitRow p t j = .ok (row.1, c) := by
  have hsig := sigs_alike hp h s.tCurr t.tCurr j
  obtain ⟨h1, h2, h3, h4, h5, h6, h7, h8⟩ := h
  unfold implicitRow at hs ⊢
  obtain ⟨⟨d, c⟩, hd, hs⟩ := Res.bind_eq_ok.mp hs
  dsimp only at hs
  obtain ⟨x, hx, hs⟩ := Res.bind_eq_ok.mp hs
  obtain ⟨r, hr, hs⟩ := Res.bind_eq_ok.mp hs
  obtain ⟨f, hf, hs⟩ := Res.bind_eq_ok.mp hs
  obtain ⟨o, ho, hs⟩ := Res.bind_eq_ok.mp hs
  obtain ⟨n0, hn0, hs⟩ := Res.bind_eq_ok.mp hs
  obtain ⟨nJ, hnJ, hs⟩ := Res.bind_eq_ok.mp hs
  cases hs
  obtain ⟨f', hf'⟩ := hp.rightHandSide s.tCurr t.tCurr x ⟨f, hf⟩
  obtain ⟨o', ho'⟩ := vget_mirror ho h7
  obtain ⟨m0, hm0⟩ := vget_mirror hn0 h6
  obtain ⟨mJ, hmJ⟩ := vget_mirror hnJ h6
  rw [hsig, hd, Res.bind_ok]
  dsimp only
  rw [h5, hx, Res.bind_ok, hp.reaction t.tCurr s.tCurr, hr, Res.bind_ok, hf', Res.bind_ok, ho', Res.bind_ok, hm0, Res.bind_ok, h1, hmJ, Res.bind_ok, h3, h4]
  exact ⟨_, rfl⟩

theorem cnRow_mirror {p : Pde F} (hp : Steady p) {s t : Fdm F} (h : Alike s t) {j : ℕ} {row : List (ℕ × ℕ × F) × F} (hs : cnRow p s j = .ok row) :
    ∃ c, cnRow p t j = .ok (row.1, c) := by
  have hsig := sigs_alike hp h s.tCurr t.tCurr j
  have hsig' := sigs_alike hp h s.tPrev t.tPrev j
  obtain ⟨h1, h2, h3, h4, h5, h6, h7, h8⟩ := h
  unfold cnRow at hs ⊢
  obtain ⟨⟨d, c⟩, hd, hs⟩ := Res.bind_eq_ok.mp hs
  dsimp only at hs
  obtain ⟨x, hx, hs⟩ := Res.bind_eq_ok.mp hs
  obtain ⟨r, hr, hs⟩ := Res.bind_eq_ok.mp hs
  obtain ⟨f1, hf1, hs⟩ := Res.bind_eq_ok.mp hs
  obtain ⟨f0, hf0, hs⟩ := Res.bind_eq_ok.mp hs
  obtain ⟨n0, hn0, hs⟩ := Res.bind_eq_ok.mp hs
  obtain ⟨nJ, hnJ, hs⟩ := Res.bind_eq_ok.mp hs
  obtain ⟨⟨d', c'⟩, hd', hs⟩ := Res.bind_eq_ok.mp hs
  dsimp only at hs
  obtain ⟨r', hr', hs⟩ := Res.bind_eq_ok.mp hs
  obtain ⟨o1, ho1, hs⟩ := Res.bind_eq_ok.mp hs
  obtain ⟨o0, ho0, hs⟩ := Res.bind_eq_ok.mp hs
  obtain ⟨o2, ho2, hs⟩ := Res.bind_eq_ok.mp hs
  cases hs
  obtain ⟨g1, hg1⟩ := hp.rightHandSide s.tCurr t.tCurr x ⟨f1, hf1⟩
  obtain ⟨g0, hg0⟩ := hp.rightHandSide s.tPrev t.tPrev x ⟨f0, hf0⟩
  obtain ⟨m0, hm0⟩ := vget_mirror hn0 h6
  obtain ⟨mJ, hmJ⟩ := vget_mirror hnJ h6
  obtain ⟨q0, e0⟩ := vget_mirror ho0 h7
  obtain ⟨q1, e1⟩ := vget_mirror ho1 h7
  obtain ⟨q2, e2⟩ := vget_mirror ho2 h7
  rw [hsig, hd, Res.bind_ok]
  dsimp only
  rw [h5, hx, Res.bind_ok, hp.reaction t.tCurr s.tCurr, hr, Res.bind_ok, hg1, Res.bind_ok, hg0, Res.bind_ok, hm0, Res.bind_ok, h1, hmJ, Res.bind_ok, hsig', hd', Res.bind_ok]
  dsimp only
  rw [hp.reaction t.tPrev s.tPrev, hr', Res.bind_ok, e1, Res.bind_ok, e0, Res.bind_ok, e2, Res.bind_ok, h3, h4]
  exact ⟨_, rfl⟩

omit [Fl F] [Add F] [Sub F] [Mul F] [Div F] [Neg F] in
theorem each_mirror {α β γ : Type} {f g : α → Res (β × γ)} (h : ∀ a r, f a = .ok r → ∃ c, g a = .ok (r.1, c)) : ∀ {l : List α} {rs : List (β × γ)},
    Res.each f l = .ok rs → ∃ rs', Res.each g l = .ok rs' ∧ rs'.map (·.1) = rs.map (·.1) ∧ rs'.length = rs.length
  | [], rs, hs => by
    cases hs
    exact ⟨[], rfl, rfl, rfl⟩
  | a :: l, rs, hs => by
    rw [Res.each, Res.bind_eq_ok] at hs
    obtain ⟨r, hr, hs⟩ := hs
    rw [Res.bind_eq_ok] at hs
    obtain ⟨rs1, h1, hs⟩ := hs
    cases hs
    obtain ⟨c, hc⟩ := h a r hr
    obtain ⟨rs', g1, g2, g3⟩ := each_mirror h h1
    refine ⟨(r.1, c) :: rs', ?_, by simp [g2], by simp [g3]⟩
    rw [Res.each, hc, Res.bind_ok, g1, Res.bind_ok]
    rfl

omit [Fl F] [Add F] [Sub F] [Mul F] [Div F] [Neg F] in
theorem copy_mirror {sol sol' : List F} (hl : sol'.length = sol.length) {s t s' : Fdm F} (h : Alike s t) (hs : copySolution sol s = (.ok (), s')) :
    ∃ t', copySolution sol' t = (.ok (), t') ∧ Alike s' t' := by
  unfold copySolution at hs ⊢
  rw [Eff.withState_apply] at hs ⊢
  rw [h.1]
  refine forJ_mirror (fun j s t _ hv => ?_) h hs
  obtain ⟨x, hx⟩ := hv
  exact vget_mirror hx hl

theorem implicit_mirror {solver : MatrixSolver F} (hM : FailsByMatrix solver) {p : Pde F} (hp : Steady p) {s t s' : Fdm F} (h : Alike s t)
    (hs : innerImplicit solver p s = (.ok (), s')) : ∃ t', innerImplicit solver p t = (.ok (), t') ∧ Alike s' t' := by
  unfold innerImplicit at hs ⊢
  obtain ⟨sol, s1, h1, h2⟩ := Eff.bind_ok_inv hs
  rw [Eff.read_apply] at h1
  obtain ⟨hsys, rfl⟩ := Prod.mk.inj h1
  clear h1
  unfold implicitSystem at hsys
  obtain ⟨rows, hr, h1⟩ := Res.bind_eq_ok.mp hsys
  obtain ⟨A, hA, h1⟩ := Res.bind_eq_ok.mp h1
  obtain ⟨rows', g1, g2, g3⟩ := each_mirror (fun j r hj => implicitRow_mirror hp h hj) hr
  obtain ⟨sol', hsol, hlen⟩ := hM A _ (rows'.map (·.2)) sol (by simp [g3]) h1
  obtain ⟨t', g4, g5⟩ := copy_mirror hlen h h2
  refine ⟨t', ?_, g5⟩
  rw [Eff.bind_of_ok (a := sol') (s' := t), g4]
  rw [Eff.read_apply]
  unfold implicitSystem
  rw [h.1, g1, Res.bind_ok, g2, hA, Res.bind_ok, hsol]

theorem cnIteration_mirror {solver : MatrixSolver F} (hM : FailsByMatrix solver) {p : Pde F} (hp : Steady p) {s t s' : Fdm F} (h : Alike s t) {j : ℕ}
    {ts a : List (ℕ × ℕ × F)} (hs : cnIteration solver p j ts s = (.ok a, s')) : ∃ t', cnIteration solver p j ts t = (.ok a, t') ∧ Alike s' t' := by
  unfold cnIteration at hs ⊢
  obtain ⟨row, s1, h1, hs⟩ := Eff.bind_ok_inv hs
  obtain ⟨_, s2, h2, hs⟩ := Eff.bind_ok_inv hs
  obtain ⟨sol, s3, h3, hs⟩ := Eff.bind_ok_inv hs
  obtain ⟨_, s4, h4, hs⟩ := Eff.bind_ok_inv hs
  cases hs
  rw [Eff.read_apply] at h1 h3
  obtain ⟨r1, rfl⟩ := Prod.mk.inj h1
  obtain ⟨r3, rfl⟩ := Prod.mk.inj h3
  clear h1 h3
  obtain ⟨c, hc⟩ := cnRow_mirror hp h r1
  unfold storeB at h2
  rcases hb : vset s.b (j - 1) row.2 with b | _ | _ <;> rw [hb] at h2
  case throw => cases h2
  case ub => cases h2
  cases h2
  obtain ⟨b', hb'⟩ := vset_mirror (y := c) hb h.2.2.2.2.2.2.2
  have hA : Alike { s with b := b } { t with b := b' } := by
    obtain ⟨h1, h2, h3, h4, h5, h6, h7, h8⟩ := h
    exact ⟨h1, h2, h3, h4, h5, h6, h7, by dsimp only; rw [vset_length hb', vset_length hb, h8]⟩
  unfold cnSystem at r3
  obtain ⟨A, hMat, r3⟩ := Res.bind_eq_ok.mp r3
  obtain ⟨sol', hsol, hlen⟩ := hM A _ b' sol hA.2.2.2.2.2.2.2 r3
  obtain ⟨t', g4, g5⟩ := copy_mirror hlen hA h4
  refine ⟨t', ?_, g5⟩
  rw [Eff.bind_of_ok (a := (row.1, c)) (s' := t) (by rw [Eff.read_apply, hc])]
  rw [Eff.bind_of_ok (a := ()) (s' := { t with b := b' }) (by unfold storeB; dsimp only; rw [hb'])]
  rw [Eff.bind_of_ok (a := sol') (s' := { t with b := b' })]
  · rw [Eff.bind_of_ok g4]
    rfl
  · rw [Eff.read_apply]
    unfold cnSystem
    dsimp only at hMat ⊢
    rw [h.1, hMat, Res.bind_ok, hsol]

theorem cnLoop_mirror {solver : MatrixSolver F} (hM : FailsByMatrix solver) {p : Pde F} (hp : Steady p) : ∀ {n j : ℕ} {ts : List (ℕ × ℕ × F)} {s t s' : Fdm F},
    Alike s t → cnLoop solver p n j ts s = (.ok (), s') → ∃ t', cnLoop solver p n j ts t = (.ok (), t') ∧ Alike s' t'
  | 0, j, ts, s, t, s', h, hs => by
    cases hs
    exact ⟨t, rfl, h⟩
  | n + 1, j, ts, s, t, s', h, hs => by
    rw [cnLoop] at hs
    obtain ⟨a, s1, h1, hs⟩ := Eff.bind_ok_inv hs
    obtain ⟨t1, g1, g2⟩ := cnIteration_mirror hM hp h h1
    obtain ⟨t', g3, g4⟩ := cnLoop_mirror hM hp g2 hs
    exact ⟨t', by rw [cnLoop, Eff.bind_of_ok g1, g3], g4⟩

theorem march_mirror {sc : Scheme F} (hM : SolverFailsByMatrix sc) {p : Pde F} (hp : Steady p) {s t s' : Fdm F} (h : Alike s t)
    (hs : march sc p s = (.ok (), s')) : ∃ t', march sc p t = (.ok (), t') ∧ Alike s' t' := by
  unfold march at hs ⊢
  cases sc with
  | explicit =>
    dsimp only at hs ⊢
    obtain ⟨_, s1, h1, h2⟩ := Eff.bind_ok_inv hs
    obtain ⟨t1, g1, g2⟩ := boundary_mirror hp (time' := (·.tPrev)) h h1
    rw [Eff.bind_of_ok g1]
    unfold innerExplicit at h2 ⊢
    rw [Eff.withState_apply] at h2 ⊢
    rw [g2.1]
    exact forJ_mirror (fun j s t h => explicitValue_mirror hp j s t h) g2 h2
  | implicit solver =>
    dsimp only at hs ⊢
    obtain ⟨_, s1, h1, h2⟩ := Eff.bind_ok_inv hs
    obtain ⟨t1, g1, g2⟩ := boundary_mirror hp (time' := (·.tCurr)) h h1
    rw [Eff.bind_of_ok g1]
    exact implicit_mirror hM hp g2 h2
  | crankNicolson solver =>
    dsimp only at hs ⊢
    obtain ⟨_, s1, h1, h2⟩ := Eff.bind_ok_inv hs
    obtain ⟨t1, g1, g2⟩ := boundary_mirror hp (time' := (·.tCurr)) h h1
    rw [Eff.bind_of_ok g1]
    unfold innerCN at h2 ⊢
    rw [Eff.withState_apply] at h2 ⊢
    rw [g2.1]
    exact cnLoop_mirror hM hp g2 h2

theorem step_mirror {sc : Scheme F} (hM : SolverFailsByMatrix sc) {p : Pde F} (hp : Steady p) {s t s' : Fdm F} (h : Alike s t)
    (hs : step sc p s = (.ok (), s')) : ∃ t', step sc p t = (.ok (), t') := by
  obtain ⟨s1, h1, -⟩ := step_eq_march hs
  have hA : Alike { s with tCurr := s.tPrev + s.dt } { t with tCurr := t.tPrev + t.dt } := h
  obtain ⟨t1, g1, -⟩ := march_mirror hM hp hA h1
  exact ⟨_, step_of_march g1⟩

/-- If the first step succeeds, no later one throws. -/
theorem timeLoop_nothrow {sc : Scheme F} (hM : SolverFailsByMatrix sc) {p : Pde F} (hp : Steady p) {s0 s0' : Fdm F} (h0 : step sc p s0 = (.ok (), s0'))
    (hl : s0.oldPrices.length = s0.newPrices.length) : ∀ {fuel : ℕ} {s : Fdm F}, Alike s0 s → ∀ e s', timeLoop sc p fuel s ≠ (.throw e, s')
  | 0, s, _, e, s' => by intro h; cases h
  | fuel + 1, s, hs, e, s' => by
    intro h
    rw [timeLoop, Eff.withState_apply] at h
    split at h
    · obtain ⟨t', ht⟩ := step_mirror hM hp hs h0
      rw [Eff.bind_of_ok ht] at h
      refine timeLoop_nothrow hM hp h0 hl (s := t') ?_ e s' h
      obtain ⟨s1, h1, rfl⟩ := step_eq_march ht
      obtain ⟨v, c, h2, hv, hc⟩ := Frame.march sc p { s with tCurr := s.tPrev + s.dt }
      rw [h1] at h2
      dsimp only at h2 hv hc
      subst h2
      obtain ⟨a1, a2, a3, a4, a5, a6, a7, a8⟩ := hs
      exact ⟨a1, a2, a3, a4, a5, by dsimp only; omega, by dsimp only; omega, by dsimp only; omega⟩
    · cases h

end Fdm
end Verif
