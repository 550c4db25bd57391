import Verif.Lemmas.Fdm
import Verif.Spec.FdmSpec
import Verif.Props.LinearSystems

/-!
# One time step of the finite difference solvers in exact arithmetic
-/

namespace Verif
open Spec

namespace Fdm

/-- A state with the grid of the constructor and the previous prices `u`. -/
structure OnGrid (s : Fdm ℝ) (u : ℕ → ℝ) : Prop where
  two : 2 ≤ s.J
  dx2 : s.dx2 = s.dx * s.dx
  xs : s.xValues = vec s.J fun j => (j : ℝ) * s.dx
  old : s.oldPrices = vec s.J u
  new : s.newPrices.length = s.J
  bb : s.b.length = s.J - 2

/-- Boundary values around inner values. -/
def around (J : ℕ) (l r : ℝ) (w : ℕ → ℝ) (k : ℕ) : ℝ :=
  if 1 ≤ k ∧ k + 1 < J then w k else if k = J - 1 then r else l

/-- The prices after explicit Euler. -/
noncomputable def explicitNew (q : Problem) (s : Fdm ℝ) (u : ℕ → ℝ) (j : ℕ) : ℝ :=
  ((s.dt * q.D s.tPrev (j * s.dx) - 1 / 2 * s.dt * s.dx * q.C s.tPrev (j * s.dx)) * u (j - 1) +
    (s.dx * s.dx - 2 * (s.dt * q.D s.tPrev (j * s.dx)) + s.dt * (s.dx * s.dx) * q.R s.tPrev (j * s.dx)) * u j +
    (s.dt * q.D s.tPrev (j * s.dx) + 1 / 2 * s.dt * s.dx * q.C s.tPrev (j * s.dx)) * u (j + 1)) / (s.dx * s.dx) -
    s.dt * q.f s.tPrev (j * s.dx)

variable {p : Pde ℝ} {q : Problem} {s : Fdm ℝ} {u : ℕ → ℝ}

theorem boundary_real (hp : Describes p q) (hs : OnGrid s u) {time : Fdm ℝ → ℝ}
    (ht : ∀ v : List ℝ, time { s with newPrices := v } = time s) :
    boundary p time s = (.ok (), { s with newPrices := (vec s.J
      (fun k => if k = s.J - 1 then q.right (time s) ((s.J - 1 : ℕ) * s.dx) else
        if k = 0 then q.left (time s) 0 else s.newPrices.getD k 0)) }) := by
  have := boundary_ok (p := p) (time := time) (s := s) (N := s.J) (g := fun i => s.newPrices.getD i 0)
    (xs := fun j => (j : ℝ) * s.dx) (l := q.left (time s) 0) (r := q.right (time s) ((s.J - 1 : ℕ) * s.dx)) hs.two
    (by conv_lhs => rw [eq_vec (0 : ℝ) s.newPrices]
        rw [hs.new]) hs.xs ht (by rw [hp.boundaryLeft]; simp) (by rw [hp.boundaryRight])
  exact this

theorem march_explicit (hp : Describes p q) (hs : OnGrid s u) :
    march .explicit p s = (.ok (), { s with newPrices := (vec s.J (around s.J (q.left s.tPrev 0)
      (q.right s.tPrev ((s.J - 1 : ℕ) * s.dx)) (explicitNew q s u))) }) := by
  have h2 := hs.two
  unfold march
  dsimp only
  rw [Eff.bind_of_ok (boundary_real hp hs (fun _ => rfl))]
  unfold innerExplicit
  rw [Eff.withState_apply]
  dsimp only
  rw [ulpred_pos (by omega)]
  rw [forJ_store (N := s.J) (w := explicitNew q s u) s (s.J - 1 - 1) 1 _ (by omega)]
  · refine congrArg (fun v => (Res.ok (), { s with newPrices := v })) (vec_congr ?_)
    intro k hk
    unfold around
    by_cases h : 1 ≤ k ∧ k + 1 < s.J
    · rw [if_pos (by omega), if_pos h]
    · rw [if_neg (by omega), if_neg h]
      by_cases h' : k = s.J - 1
      · simp [h']
      · rw [if_neg h', if_neg h', if_pos (by omega)]
  · intro j h1 hj v _
    simp [explicitValue, sigs, hs.xs, hs.old, vget_vec, show j < s.J by omega, show j - 1 < s.J by omega,
      show j + 1 < s.J by omega, hp.diffusion, hp.convection, hp.reaction, hp.rightHandSide, hs.dx2, explicitNew]

theorem explicitNew_scheme (hdt : s.dt ≠ 0) (hdx : s.dx ≠ 0) {j : ℕ} (hj : 1 ≤ j) :
    (explicitNew q s u j - u j) / s.dt = central q s.dx s.tPrev u j := by
  unfold explicitNew central
  field_simp
  ring

/-! ## The tridiagonal system -/

theorem filter_rows {T : ℕ → List (ℕ × ℕ × ℝ)} (hT : ∀ i, ∀ t ∈ T i, t.1 = i) (i k : ℕ) : ∀ m,
    ((vec m T).flatten.filter fun t => t.1 == i && t.2.1 == k) =
      if i < m then (T i).filter fun t => t.2.1 == k else []
  | 0 => by simp [vec]
  | m + 1 => by
    have ih := filter_rows hT i k m
    have e : vec (m + 1) T = vec m T ++ [T m] := by simp [vec, List.range_succ]
    rw [e, List.flatten_append, List.filter_append, ih]
    simp only [List.flatten_cons, List.flatten_nil, List.append_nil]
    by_cases h : m = i
    · subst h
      rw [if_neg (lt_irrefl _), if_pos (Nat.lt_succ_self _), List.nil_append]
      apply List.filter_congr
      intro t ht
      simp [hT _ t ht]
    · have h0 : (T m).filter (fun t => t.1 == i && t.2.1 == k) = [] := by
        rw [List.filter_eq_nil_iff]
        intro t ht
        simp [hT m t ht, h]
      rw [h0, List.append_nil]
      by_cases h' : i < m
      · rw [if_pos h', if_pos (by omega)]
      · rw [if_neg h', if_neg (by omega)]

/-- The coefficients of the matrix after `m` rows. -/
theorem tripletValue_rows {J m : ℕ} (al be ga : ℕ → ℝ) {i k : ℕ} (hk : k < J - 2) (hm : m ≤ J - 2) :
    Mat.tripletValue (vec m fun i => triplets J (i + 1) (al i) (be i) (ga i)).flatten i k =
      if i < m then (if k + 1 = i then al i else if k = i then be i else if k = i + 1 then ga i else 0) else 0 := by
  unfold Mat.tripletValue
  rw [filter_rows]
  · by_cases him : i < m
    · rw [if_pos him, if_pos him]
      unfold triplets
      by_cases h1 : k + 1 = i
      · rw [if_pos h1, if_pos (show i + 1 > 1 by omega)]
        have a1 : i - 1 = k := by omega
        have a2 : ¬ i = k := by omega
        have a3 : ¬ i + 1 = k := by omega
        split_ifs <;> simp [List.filter_cons, a1, a2, a3]
      · rw [if_neg h1]
        have b1 : ∀ x : ℝ, (if i + 1 > 1 then [(i + 1 - 1, i + 1 - 2, x)] else []).filter (fun t => t.2.1 == k) = [] := by
          intro x
          split_ifs with h
          · have : ¬ i - 1 = k := by omega
            simp [List.filter_cons, this]
          · rfl
        rw [List.filter_append, List.filter_append, b1, List.nil_append]
        by_cases h2 : k = i
        · subst h2
          rw [if_pos rfl]
          split_ifs <;> simp [List.filter_cons]
        · rw [if_neg h2]
          have a2 : ¬ i = k := by omega
          by_cases h3 : k = i + 1
          · subst h3
            rw [if_pos rfl, if_pos (show i + 1 < J - 2 by omega)]
            simp [List.filter_cons]
          · rw [if_neg h3]
            have a3 : ¬ i + 1 = k := by omega
            split_ifs <;> simp [List.filter_cons, a2, a3]
    · rw [if_neg him, if_neg him]
      simp
  · intro i t ht
    unfold triplets at ht
    split_ifs at ht <;> simp at ht <;> rcases ht with rfl | rfl | rfl <;> rfl

/-- The triplets are inside the matrix. -/
theorem ofTriplets_rows {J m : ℕ} (al be ga : ℕ → ℝ) (hm : m ≤ J - 2) :
    Mat.ofTriplets (J - 2) (J - 2) (vec m fun i => triplets J (i + 1) (al i) (be i) (ga i)).flatten =
      .ok ⟨J - 2, J - 2, Mat.tripletValue (vec m fun i => triplets J (i + 1) (al i) (be i) (ga i)).flatten⟩ := by
  unfold Mat.ofTriplets
  rw [if_pos]
  rw [List.all_eq_true]
  intro t ht
  simp only [vec, List.mem_flatten, List.mem_map, List.mem_range] at ht
  obtain ⟨l, ⟨i, hi, rfl⟩, ht⟩ := ht
  unfold triplets at ht
  simp only [Bool.and_eq_true, decide_eq_true_eq]
  split_ifs at ht <;> simp at ht <;> rcases ht with rfl | rfl | rfl <;> refine ⟨?_, ?_⟩ <;> dsimp only <;> omega

/-- The full matrix. -/
noncomputable def triMat (J : ℕ) (al be ga : ℕ → ℝ) : Mat ℝ :=
  ⟨J - 2, J - 2, Mat.tripletValue (vec (J - 2) fun i => triplets J (i + 1) (al i) (be i) (ga i)).flatten⟩

theorem triMat_coeff {J : ℕ} (al be ga : ℕ → ℝ) {i k : ℕ} (hi : i < J - 2) (hk : k < J - 2) :
    (triMat J al be ga).coeff i k = if k + 1 = i then al i else if k = i then be i else if k = i + 1 then ga i else 0 := by
  unfold triMat
  dsimp only
  rw [tripletValue_rows al be ga hk le_rfl, if_pos hi]

theorem triMat_tridiagonal (J : ℕ) (al be ga : ℕ → ℝ) : Tridiagonal (triMat J al be ga) := by
  refine ⟨rfl, ?_⟩
  intro i j hi hj h
  rw [triMat_coeff al be ga hi hj, if_neg (by omega), if_neg (by omega), if_neg (by omega)]

/-- The rows of the system. -/
theorem triMat_row {J : ℕ} (al be ga : ℕ → ℝ) {i : ℕ} (hi : i < J - 2) (y : ℕ → ℝ) :
    ∑ k ∈ Finset.range (triMat J al be ga).cols, (triMat J al be ga).coeff i k * y k =
      (if i = 0 then 0 else al i * y (i - 1)) + be i * y i + (if i + 1 < J - 2 then ga i * y (i + 1) else 0) := by
  rw [row_sum (triMat_tridiagonal J al be ga) hi]
  have h1 : (triMat J al be ga).coeff i i = be i := by
    rw [triMat_coeff al be ga hi hi, if_neg (by omega), if_pos rfl]
  rw [h1]
  congr 1
  · congr 1
    by_cases h0 : i = 0
    · simp [h0]
    · rw [if_neg h0, if_neg h0, triMat_coeff al be ga hi (by omega), if_pos (by omega)]
  · change (if i + 1 < J - 2 then _ else _) = _
    by_cases h : i + 1 < J - 2
    · rw [if_pos h, if_pos h, triMat_coeff al be ga hi h, if_neg (by omega), if_neg (by omega), if_pos rfl]
    · rw [if_neg h, if_neg h]

theorem copySolution_ok (hJ : 2 ≤ s.J) {sol : List ℝ} (hl : sol.length = s.J - 2) {g : ℕ → ℝ} (hg : s.newPrices = vec s.J g) :
    copySolution sol s = (.ok (), { s with newPrices := (vec s.J
      fun k => if 1 ≤ k ∧ k + 1 < s.J then sol.getD (k - 1) 0 else g k) }) := by
  unfold copySolution
  rw [Eff.withState_apply, ulpred_pos (by omega)]
  have h := forJ_store (val := fun j _ => vget sol (j - 1)) (w := fun k => sol.getD (k - 1) 0) (N := s.J) s (s.J - 1 - 1) 1 g
    (by omega) (by
      intro j h1 h2 v _
      have : j - 1 < sol.length := by omega
      simp [vget, List.getD, this])
  rw [← hg] at h
  rw [h]
  refine congrArg (fun v => (Res.ok (), { s with newPrices := v })) (vec_congr ?_)
  intro k _
  by_cases hk : 1 ≤ k ∧ k + 1 < s.J
  · rw [if_pos (by omega), if_pos hk]
  · rw [if_neg (by omega), if_neg hk]

/-! ## Implicit Euler -/

/-- The subdiagonal, diagonal and superdiagonal coefficients of implicit Euler at node `j`. -/
noncomputable def lowerI (q : Problem) (s : Fdm ℝ) (j : ℕ) : ℝ :=
  s.dt * q.D s.tCurr (j * s.dx) - 1 / 2 * s.dt * s.dx * q.C s.tCurr (j * s.dx)
noncomputable def diagI (q : Problem) (s : Fdm ℝ) (j : ℕ) : ℝ :=
  -(s.dx * s.dx) - 2 * (s.dt * q.D s.tCurr (j * s.dx)) + s.dt * (s.dx * s.dx) * q.R s.tCurr (j * s.dx)
noncomputable def upperI (q : Problem) (s : Fdm ℝ) (j : ℕ) : ℝ :=
  s.dt * q.D s.tCurr (j * s.dx) + 1 / 2 * s.dt * s.dx * q.C s.tCurr (j * s.dx)

/-- The right-hand side of implicit Euler in row `i`, with boundary values `l` and `r`. -/
noncomputable def rhsI (q : Problem) (s : Fdm ℝ) (u : ℕ → ℝ) (l r : ℝ) (i : ℕ) : ℝ :=
  s.dx * s.dx * (s.dt * q.f s.tCurr ((i + 1 : ℕ) * s.dx) - u (i + 1)) - (if i = 0 then lowerI q s (i + 1) * l else 0) -
    (if i + 1 = s.J - 2 then upperI q s (i + 1) * r else 0)

noncomputable def matI (q : Problem) (s : Fdm ℝ) : Mat ℝ :=
  triMat s.J (fun i => lowerI q s (i + 1)) (fun i => diagI q s (i + 1)) (fun i => upperI q s (i + 1))

theorem implicitSystem_eq (solver : MatrixSolver ℝ) (hp : Describes p q) (hs : OnGrid s u) {g : ℕ → ℝ}
    (hg : s.newPrices = vec s.J g) :
    implicitSystem solver p s = solver (matI q s) (vec (s.J - 2) (rhsI q s u (g 0) (g (s.J - 1)))) := by
  have h2 := hs.two
  unfold implicitSystem
  rw [ulpred_pos (by omega), Nat.sub_sub]
  have hrow : ∀ i < s.J - 2, implicitRow p s (i + 1) =
      .ok (triplets s.J (i + 1) (lowerI q s (i + 1)) (diagI q s (i + 1)) (upperI q s (i + 1)),
        rhsI q s u (g 0) (g (s.J - 1)) i) := by
    intro i hi
    simp [implicitRow, sigs, hs.xs, hs.old, hg, vget_vec, show i + 1 < s.J by omega, show 0 < s.J by omega,
      show s.J - 1 < s.J by omega, hp.diffusion, hp.convection, hp.reaction, hp.rightHandSide, hs.dx2, rhsI, lowerI,
      diagI, upperI]
    split_ifs <;> ring
  have := each_vec (f := implicitRow p s) (g := fun i => i + 1) (n := s.J - 2) hrow
  unfold vec at this
  rw [this, Res.bind_ok]
  have e1 : (List.map (fun x : List (ℕ × ℕ × ℝ) × ℝ => x.1) (List.map (fun i => (triplets s.J (i + 1) (lowerI q s (i + 1)) (diagI q s (i + 1)) (upperI q s (i + 1)),
        rhsI q s u (g 0) (g (s.J - 1)) i)) (List.range (s.J - 2)))) =
      vec (s.J - 2) (fun i => triplets s.J (i + 1) (lowerI q s (i + 1)) (diagI q s (i + 1)) (upperI q s (i + 1))) := by
    rw [List.map_map]; rfl
  have e2 : (List.map (fun x : List (ℕ × ℕ × ℝ) × ℝ => x.2) (List.map (fun i => (triplets s.J (i + 1) (lowerI q s (i + 1)) (diagI q s (i + 1)) (upperI q s (i + 1)),
        rhsI q s u (g 0) (g (s.J - 1)) i)) (List.range (s.J - 2)))) =
      vec (s.J - 2) (rhsI q s u (g 0) (g (s.J - 1))) := by
    rw [List.map_map]; rfl
  rw [e1, e2, ofTriplets_rows _ _ _ le_rfl, Res.bind_ok]
  rfl

/-- The state after the boundary values. -/
theorem OnGrid.boundary (hs : OnGrid s u) {v : List ℝ} (hv : v.length = s.J) : OnGrid { s with newPrices := v } u :=
  ⟨hs.two, hs.dx2, hs.xs, hs.old, hv, hs.bb⟩

/-- Implicit Euler solves the system and takes over its solution. -/
theorem march_implicit (solver : MatrixSolver ℝ) (hp : Describes p q) (hs : OnGrid s u) :
    (∀ sol, solver (matI q s) (vec (s.J - 2) (rhsI q s u (q.left s.tCurr 0) (q.right s.tCurr ((s.J - 1 : ℕ) * s.dx)))) = .ok sol →
      sol.length = s.J - 2 →
      march (.implicit solver) p s = (.ok (), { s with newPrices := (vec s.J (around s.J (q.left s.tCurr 0)
        (q.right s.tCurr ((s.J - 1 : ℕ) * s.dx)) (fun k => sol.getD (k - 1) 0))) })) ∧
    (∀ s', march (.implicit solver) p s = (.ok (), s') →
      ∃ sol, solver (matI q s) (vec (s.J - 2) (rhsI q s u (q.left s.tCurr 0) (q.right s.tCurr ((s.J - 1 : ℕ) * s.dx)))) = .ok sol) := by
  have h2 := hs.two
  have hb := boundary_real (time := fun s => s.tCurr) hp hs (fun _ => rfl)
  set g : ℕ → ℝ := fun k => if k = s.J - 1 then q.right s.tCurr ((s.J - 1 : ℕ) * s.dx) else
        if k = 0 then q.left s.tCurr 0 else s.newPrices.getD k 0 with hg
  have g0 : g 0 = q.left s.tCurr 0 := by rw [hg]; dsimp only; rw [if_neg (by omega), if_pos rfl]
  have gJ : g (s.J - 1) = q.right s.tCurr ((s.J - 1 : ℕ) * s.dx) := by rw [hg]; dsimp only; rw [if_pos rfl]
  have hsys := implicitSystem_eq solver hp (hs.boundary (v := vec s.J g) (by simp)) (g := g) rfl
  rw [g0, gJ] at hsys
  have hm : march (.implicit solver) p s = (do
      let sol ← Eff.read (implicitSystem solver p)
      copySolution sol : Eff (Fdm ℝ) Unit) { s with newPrices := vec s.J g } := by
    unfold march
    dsimp only
    rw [Eff.bind_of_ok hb]
    rfl
  refine ⟨fun sol hsol hl => ?_, fun s' h => ?_⟩
  · have hr : Eff.read (implicitSystem solver p) { s with newPrices := vec s.J g } = (.ok sol, { s with newPrices := vec s.J g }) := by
      rw [Eff.read_apply, hsys]
      exact congrArg (fun r => (r, _)) hsol
    rw [hm, Eff.bind_of_ok hr, copySolution_ok (s := { s with newPrices := vec s.J g }) h2 hl rfl]
    refine congrArg (fun v => (Res.ok (), { s with newPrices := v })) (vec_congr ?_)
    intro k hk
    have hk : k < s.J := hk
    unfold around
    by_cases h : 1 ≤ k ∧ k + 1 < s.J
    · rw [if_pos h, if_pos h]
    · rw [if_neg h, if_neg h]
      by_cases h' : k = s.J - 1
      · rw [h', gJ, if_pos rfl]
      · rw [if_neg h', show k = 0 by omega, g0]
  · rw [hm] at h
    rcases hr : solver (matI q s) (vec (s.J - 2) (rhsI q s u (q.left s.tCurr 0) (q.right s.tCurr ((s.J - 1 : ℕ) * s.dx)))) with sol | e | _
    · exact ⟨sol, rfl⟩
    · have : Eff.read (implicitSystem solver p) { s with newPrices := vec s.J g } = (.throw e, { s with newPrices := vec s.J g }) := by
        rw [Eff.read_apply, hsys]
        exact congrArg (fun r => (r, _)) hr
      rw [Eff.bind_of_throw this] at h
      cases h
    · have : Eff.read (implicitSystem solver p) { s with newPrices := vec s.J g } = (.ub, { s with newPrices := vec s.J g }) := by
        rw [Eff.read_apply, hsys]
        exact congrArg (fun r => (r, _)) hr
      rw [Eff.bind_of_ub this] at h
      cases h

/-- The equations of the system with the boundary values put back. -/
theorem implicit_rows {l r : ℝ} {sol : List ℝ} (h : Solves (matI q s) (vec (s.J - 2) (rhsI q s u l r)) sol) {j : ℕ}
    (h1 : 1 ≤ j) (h2 : j + 1 < s.J) :
    lowerI q s j * around s.J l r (fun k => sol.getD (k - 1) 0) (j - 1) + diagI q s j * around s.J l r (fun k => sol.getD (k - 1) 0) j +
      upperI q s j * around s.J l r (fun k => sol.getD (k - 1) 0) (j + 1) =
    s.dx * s.dx * (s.dt * q.f s.tCurr (j * s.dx) - u j) := by
  obtain ⟨i, rfl⟩ : ∃ i, j = i + 1 := ⟨j - 1, by omega⟩
  have hi : i < s.J - 2 := by omega
  have := h.2.2 i hi
  unfold matI at this
  rw [triMat_row _ _ _ hi] at this
  unfold entry at this
  rw [vec_getD _ _ hi] at this
  unfold rhsI at this
  have a1 : around s.J l r (fun k => sol.getD (k - 1) 0) (i + 1) = sol.getD i 0 := by
    unfold around; rw [if_pos (by omega)]; rfl
  have a0 : around s.J l r (fun k => sol.getD (k - 1) 0) (i + 1 - 1) = if i = 0 then l else sol.getD (i - 1) 0 := by
    unfold around
    by_cases h0 : i = 0
    · rw [if_neg (by omega), if_neg (by omega), if_pos h0]
    · rw [if_pos (by omega), if_neg h0]; rfl
  have a2 : around s.J l r (fun k => sol.getD (k - 1) 0) (i + 1 + 1) = if i + 1 = s.J - 2 then r else sol.getD (i + 1) 0 := by
    unfold around
    by_cases h0 : i + 1 = s.J - 2
    · rw [if_neg (by omega), if_pos (by omega), if_pos h0]
    · rw [if_pos (by omega), if_neg h0]; rfl
  rw [a0, a1, a2]
  by_cases c1 : i = 0 <;> by_cases c2 : i + 1 = s.J - 2
  · rw [if_pos c1] at this ⊢
    rw [if_neg (show ¬ i + 1 < s.J - 2 by omega), if_pos c1, if_pos c2] at this
    rw [if_pos c2]
    linear_combination this
  · rw [if_pos c1] at this ⊢
    rw [if_pos (show i + 1 < s.J - 2 by omega), if_pos c1, if_neg c2] at this
    rw [if_neg c2]
    linear_combination this
  · rw [if_neg c1] at this ⊢
    rw [if_neg (show ¬ i + 1 < s.J - 2 by omega), if_neg c1, if_pos c2] at this
    rw [if_pos c2]
    linear_combination this
  · rw [if_neg c1] at this ⊢
    rw [if_pos (show i + 1 < s.J - 2 by omega), if_neg c1, if_neg c2] at this
    rw [if_neg c2]
    linear_combination this

theorem implicit_scheme {w : ℕ → ℝ} (hdt : s.dt ≠ 0) (hdx : s.dx ≠ 0) {j : ℕ}
    (h : lowerI q s j * w (j - 1) + diagI q s j * w j + upperI q s j * w (j + 1) =
      s.dx * s.dx * (s.dt * q.f s.tCurr (j * s.dx) - u j)) :
    (w j - u j) / s.dt = central q s.dx s.tCurr w j := by
  unfold lowerI diagI upperI at h
  unfold central
  field_simp
  linear_combination (-2) * h

/-! ## Crank-Nicolson -/

/-- The coefficients of Crank-Nicolson at node `j`: of the new prices and of the old prices. -/
noncomputable def lowerC (q : Problem) (s : Fdm ℝ) (j : ℕ) : ℝ :=
  1 / 2 * (s.dt * q.D s.tCurr (j * s.dx) - 1 / 2 * s.dt * s.dx * q.C s.tCurr (j * s.dx))
noncomputable def diagC (q : Problem) (s : Fdm ℝ) (j : ℕ) : ℝ :=
  -(s.dx * s.dx) - s.dt * q.D s.tCurr (j * s.dx) + 1 / 2 * s.dt * (s.dx * s.dx) * q.R s.tCurr (j * s.dx)
noncomputable def upperC (q : Problem) (s : Fdm ℝ) (j : ℕ) : ℝ :=
  1 / 2 * (s.dt * q.D s.tCurr (j * s.dx) + 1 / 2 * s.dt * s.dx * q.C s.tCurr (j * s.dx))
noncomputable def lowerO (q : Problem) (s : Fdm ℝ) (j : ℕ) : ℝ :=
  -(1 / 2) * (s.dt * q.D s.tPrev (j * s.dx) - 1 / 2 * s.dt * s.dx * q.C s.tPrev (j * s.dx))
noncomputable def diagO (q : Problem) (s : Fdm ℝ) (j : ℕ) : ℝ :=
  -(s.dx * s.dx) + s.dt * q.D s.tPrev (j * s.dx) - 1 / 2 * s.dt * (s.dx * s.dx) * q.R s.tPrev (j * s.dx)
noncomputable def upperO (q : Problem) (s : Fdm ℝ) (j : ℕ) : ℝ :=
  -(1 / 2) * (s.dt * q.D s.tPrev (j * s.dx) + 1 / 2 * s.dt * s.dx * q.C s.tPrev (j * s.dx))

/-- The right-hand side of Crank-Nicolson in row `i`, with new boundary values `l` and `r`. -/
noncomputable def rhsC (q : Problem) (s : Fdm ℝ) (u : ℕ → ℝ) (l r : ℝ) (i : ℕ) : ℝ :=
  1 / 2 * (s.dx * s.dx) * s.dt * (q.f s.tCurr ((i + 1 : ℕ) * s.dx) + q.f s.tPrev ((i + 1 : ℕ) * s.dx)) -
    (if i = 0 then lowerC q s (i + 1) * l else 0) - (if i + 1 = s.J - 2 then upperC q s (i + 1) * r else 0) +
    diagO q s (i + 1) * u (i + 1) + (if i = 0 then 0 else lowerO q s (i + 1) * u i) +
    (if i + 1 < s.J - 2 then upperO q s (i + 1) * u (i + 2) else 0)

/-- The triplets of row `i`. -/
noncomputable def rowC (q : Problem) (s : Fdm ℝ) (i : ℕ) : List (ℕ × ℕ × ℝ) :=
  triplets s.J (i + 1) (lowerC q s (i + 1)) (diagC q s (i + 1)) (upperC q s (i + 1))

noncomputable def matC (q : Problem) (s : Fdm ℝ) : Mat ℝ :=
  triMat s.J (fun i => lowerC q s (i + 1)) (fun i => diagC q s (i + 1)) (fun i => upperC q s (i + 1))

theorem cnRow_eq (hp : Describes p q) (hs : OnGrid s u) {g : ℕ → ℝ} (hg : s.newPrices = vec s.J g) {i : ℕ} (hi : i < s.J - 2) :
    cnRow p s (i + 1) = .ok (rowC q s i, rhsC q s u (g 0) (g (s.J - 1)) i) := by
  have h2 := hs.two
  simp [cnRow, sigs, hs.xs, hs.old, hg, vget_vec, show i + 1 < s.J by omega, show i < s.J by omega, show i + 1 + 1 < s.J by omega,
    show 0 < s.J by omega, show s.J - 1 < s.J by omega, hp.diffusion, hp.convection, hp.reaction, hp.rightHandSide, hs.dx2,
    rhsC, rowC, lowerC, diagC, upperC, lowerO, diagO, upperO]
  by_cases c1 : i = 0
  · rw [if_neg (show ¬ 0 < i by omega), if_pos c1, if_pos c1, if_pos c1]
    split_ifs <;> ring
  · rw [if_pos (show 0 < i by omega), if_neg c1, if_neg c1, if_neg c1]
    split_ifs <;> ring

/-- One iteration. -/
theorem cnIteration_eq (solver : MatrixSolver ℝ) (hlen : ∀ A b x, A.rows = A.cols → b.length = A.rows → solver A b = .ok x → x.length = b.length)
    (hp : Describes p q) (hs : OnGrid s u) {g c : ℕ → ℝ} {m : ℕ} (hm : m < s.J - 2) :
    let c' := fun i => if i = m then rhsC q s u (g 0) (g (s.J - 1)) m else c i
    let A : Mat ℝ := ⟨s.J - 2, s.J - 2, Mat.tripletValue (vec (m + 1) (rowC q s)).flatten⟩
    let s1 := { s with newPrices := vec s.J g, b := vec (s.J - 2) c' }
    cnIteration solver p (m + 1) (vec m (rowC q s)).flatten { s with newPrices := vec s.J g, b := vec (s.J - 2) c } =
      match solver A (vec (s.J - 2) c') with
      | .ok sol => (.ok (vec (m + 1) (rowC q s)).flatten, { s1 with newPrices := (vec s.J
          fun k => if 1 ≤ k ∧ k + 1 < s.J then sol.getD (k - 1) 0 else g k) })
      | .throw e => (.throw e, s1)
      | .ub => (.ub, s1) := by
  intro c' A s1
  have h2 := hs.two
  have hs0 : OnGrid { s with newPrices := vec s.J g, b := vec (s.J - 2) c } u :=
    ⟨hs.two, hs.dx2, hs.xs, hs.old, by simp, by simp⟩
  have hrow : Eff.read (fun s => cnRow p s (m + 1)) { s with newPrices := vec s.J g, b := vec (s.J - 2) c } =
      (.ok (rowC q s m, rhsC q s u (g 0) (g (s.J - 1)) m), { s with newPrices := vec s.J g, b := vec (s.J - 2) c }) := by
    rw [Eff.read_apply, cnRow_eq hp hs0 (g := g) rfl hm]
    rfl
  have hb : storeB m (rhsC q s u (g 0) (g (s.J - 1)) m) { s with newPrices := vec s.J g, b := vec (s.J - 2) c } = (.ok (), s1) := by
    unfold storeB
    dsimp only
    rw [vset_vec c _ hm]
  have hts : (vec m (rowC q s)).flatten ++ rowC q s m = (vec (m + 1) (rowC q s)).flatten := by
    simp [vec, List.range_succ]
  have hsys : cnSystem solver (vec (m + 1) (rowC q s)).flatten s1 = solver A (vec (s.J - 2) c') := by
    unfold cnSystem
    have := ofTriplets_rows (J := s.J) (m := m + 1) (fun i => lowerC q s (i + 1)) (fun i => diagC q s (i + 1))
      (fun i => upperC q s (i + 1)) hm
    change (Mat.ofTriplets (s.J - 2) (s.J - 2) (vec (m + 1) (rowC q s)).flatten >>= _) = _
    unfold rowC
    rw [this]
    rfl
  unfold cnIteration
  rw [Eff.bind_of_ok hrow]
  dsimp only
  rw [hts, show m + 1 - 1 = m from rfl, Eff.bind_of_ok hb]
  rcases hr : solver A (vec (s.J - 2) c') with sol | e | _
  · have h1 : Eff.read (cnSystem solver (vec (m + 1) (rowC q s)).flatten) s1 = (.ok sol, s1) := by
      rw [Eff.read_apply, hsys, hr]
    rw [Eff.bind_of_ok h1, Eff.bind_of_ok (copySolution_ok (s := s1) h2 (by rw [hlen _ _ _ rfl (vec_length _ _) hr, vec_length]) rfl)]
    rfl
  · have h1 : Eff.read (cnSystem solver (vec (m + 1) (rowC q s)).flatten) s1 = (.throw e, s1) := by
      rw [Eff.read_apply, hsys, hr]
    rw [Eff.bind_of_throw h1]
  · have h1 : Eff.read (cnSystem solver (vec (m + 1) (rowC q s)).flatten) s1 = (.ub, s1) := by
      rw [Eff.read_apply, hsys, hr]
    rw [Eff.bind_of_ub h1]

/-- The loop: when it ends normally, the result is that of the last iteration, which solves the full system. -/
theorem cnLoop_eq (solver : MatrixSolver ℝ) (hlen : ∀ A b x, A.rows = A.cols → b.length = A.rows → solver A b = .ok x → x.length = b.length)
    (hp : Describes p q) (hs : OnGrid s u) (l r : ℝ) : ∀ (k m : ℕ) (g c : ℕ → ℝ), m + k = s.J - 2 → 1 ≤ k →
    g 0 = l → g (s.J - 1) = r → (∀ i < m, c i = rhsC q s u l r i) → ∀ s',
    cnLoop solver p k (m + 1) (vec m (rowC q s)).flatten { s with newPrices := vec s.J g, b := vec (s.J - 2) c } = (.ok (), s') →
    ∃ sol, solver (matC q s) (vec (s.J - 2) (rhsC q s u l r)) = .ok sol ∧ sol.length = s.J - 2 ∧
      s' = { s with newPrices := vec s.J (around s.J l r fun k => sol.getD (k - 1) 0), b := vec (s.J - 2) (rhsC q s u l r) }
  | 0, _, _, _, _, hk, _, _, _, _, _ => by omega
  | k + 1, m, g, c, hmk, _, hg0, hgJ, hc, s', h => by
    have h2 := hs.two
    rw [cnLoop] at h
    have it := cnIteration_eq solver hlen hp hs (g := g) (c := c) (m := m) (by omega)
    dsimp only at it
    rw [hg0, hgJ] at it
    rcases hr : solver ⟨s.J - 2, s.J - 2, Mat.tripletValue (vec (m + 1) (rowC q s)).flatten⟩
      (vec (s.J - 2) fun i => if i = m then rhsC q s u l r m else c i) with sol | e | _
    · rw [hr] at it
      rw [Eff.bind_of_ok it] at h
      have hc' : ∀ i < m + 1, (if i = m then rhsC q s u l r m else c i) = rhsC q s u l r i := by
        intro i hi
        by_cases h' : i = m
        · rw [if_pos h', h']
        · rw [if_neg h', hc i (by omega)]
      cases k with
      | zero =>
        have e : vec (s.J - 2) (fun i => if i = m then rhsC q s u l r m else c i) = vec (s.J - 2) (rhsC q s u l r) :=
          vec_congr fun i hi => hc' i (by omega)
        have e' : s' = _ := (Prod.mk.inj h).2.symm
        rw [e] at hr e'
        refine ⟨sol, ?_, by rw [hlen _ _ _ rfl (vec_length _ _) hr, vec_length], ?_⟩
        · rw [← hr, show m + 1 = s.J - 2 by omega]
          rfl
        · rw [e']
          refine congrArg (fun v => { s with newPrices := v, b := vec (s.J - 2) (rhsC q s u l r) }) (vec_congr ?_)
          intro i hi
          unfold around
          by_cases h1 : 1 ≤ i ∧ i + 1 < s.J
          · rw [if_pos h1, if_pos h1]
          · rw [if_neg h1, if_neg h1]
            by_cases h' : i = s.J - 1
            · rw [h', hgJ, if_pos rfl]
            · rw [if_neg h', show i = 0 by omega, hg0]
      | succ k =>
        refine cnLoop_eq solver hlen hp hs l r (k + 1) (m + 1) _ _ (by omega) (by omega) ?_ ?_ hc' s' h
        · rw [if_neg (by omega), hg0]
        · rw [if_neg (by omega), hgJ]
    · rw [hr] at it
      rw [Eff.bind_of_throw it] at h
      cases h
    · rw [hr] at it
      rw [Eff.bind_of_ub it] at h
      cases h

/-- With a solver that always returns, the loop ends normally. -/
theorem cnLoop_returns (solver : MatrixSolver ℝ) (hlen : ∀ A b x, A.rows = A.cols → b.length = A.rows → solver A b = .ok x → x.length = b.length)
    (hret : ∀ A b, A.rows = s.J - 2 → A.cols = s.J - 2 → b.length = s.J - 2 → ∃ x, solver A b = .ok x)
    (hp : Describes p q) (hs : OnGrid s u) : ∀ (k m : ℕ) (g c : ℕ → ℝ), m + k = s.J - 2 →
    ∃ s', cnLoop solver p k (m + 1) (vec m (rowC q s)).flatten { s with newPrices := vec s.J g, b := vec (s.J - 2) c } = (.ok (), s')
  | 0, _, _, _, _ => ⟨_, rfl⟩
  | k + 1, m, g, c, hmk => by
    rw [cnLoop]
    have it := cnIteration_eq solver hlen hp hs (g := g) (c := c) (m := m) (by omega)
    dsimp only at it
    obtain ⟨sol, hr⟩ := hret ⟨s.J - 2, s.J - 2, Mat.tripletValue (vec (m + 1) (rowC q s)).flatten⟩
      (vec (s.J - 2) fun i => if i = m then rhsC q s u (g 0) (g (s.J - 1)) m else c i) rfl rfl (by simp)
    rw [hr] at it
    rw [Eff.bind_of_ok it]
    exact cnLoop_returns solver hlen hret hp hs k (m + 1) _ _ (by omega)

/-- The state at the start of the loop. -/
theorem march_cn_start (solver : MatrixSolver ℝ) (hp : Describes p q) (hs : OnGrid s u) :
    ∃ g c : ℕ → ℝ, g 0 = q.left s.tCurr 0 ∧ g (s.J - 1) = q.right s.tCurr ((s.J - 1 : ℕ) * s.dx) ∧
      (∀ i, 0 < i → i < s.J - 1 → g i = s.newPrices.getD i 0) ∧
      march (.crankNicolson solver) p s =
        cnLoop solver p (s.J - 2) 1 (vec 0 (rowC q s)).flatten { s with newPrices := vec s.J g, b := vec (s.J - 2) c } := by
  have h2 := hs.two
  refine ⟨fun k => if k = s.J - 1 then q.right s.tCurr ((s.J - 1 : ℕ) * s.dx) else
        if k = 0 then q.left s.tCurr 0 else s.newPrices.getD k 0, fun i => s.b.getD i 0, ?_, ?_, ?_, ?_⟩
  · dsimp only; rw [if_neg (by omega), if_pos rfl]
  · dsimp only; rw [if_pos rfl]
  · intro i h1 h2; dsimp only; rw [if_neg (by omega), if_neg (by omega)]
  · unfold march
    dsimp only
    rw [Eff.bind_of_ok (boundary_real (time := fun s => s.tCurr) hp hs (fun _ => rfl))]
    unfold innerCN
    rw [Eff.withState_apply]
    dsimp only
    rw [ulpred_pos (by omega), Nat.sub_sub]
    have : s.b = vec (s.J - 2) (fun i => s.b.getD i 0) := by
      conv_lhs => rw [eq_vec (0 : ℝ) s.b]
      rw [hs.bb]
    rw [← this]
    rfl

/-- A Crank-Nicolson step that ends normally took over the solution of the system. -/
theorem march_cn (solver : MatrixSolver ℝ) (hlen : ∀ A b x, A.rows = A.cols → b.length = A.rows → solver A b = .ok x → x.length = b.length)
    (hp : Describes p q) (hs : OnGrid s u) (hJ : 3 ≤ s.J) {s' : Fdm ℝ} (h : march (.crankNicolson solver) p s = (.ok (), s')) :
    ∃ sol, solver (matC q s) (vec (s.J - 2) (rhsC q s u (q.left s.tCurr 0) (q.right s.tCurr ((s.J - 1 : ℕ) * s.dx)))) = .ok sol ∧
      sol.length = s.J - 2 ∧
      s' = { s with newPrices := (vec s.J (around s.J (q.left s.tCurr 0) (q.right s.tCurr ((s.J - 1 : ℕ) * s.dx))
                      fun k => sol.getD (k - 1) 0)),
                    b := vec (s.J - 2) (rhsC q s u (q.left s.tCurr 0) (q.right s.tCurr ((s.J - 1 : ℕ) * s.dx))) } := by
  obtain ⟨g, c, h0, hJ', -, hm⟩ := march_cn_start solver hp hs
  rw [hm] at h
  exact cnLoop_eq solver hlen hp hs _ _ (s.J - 2) 0 g c (by omega) (by omega) h0 hJ' (fun i hi => by omega) s' h

/-- The equations of the system with the new boundary values put back; the old boundary values are missing. -/
theorem cn_rows {l r : ℝ} {sol : List ℝ} (h : Solves (matC q s) (vec (s.J - 2) (rhsC q s u l r)) sol) {j : ℕ}
    (h1 : 1 ≤ j) (h2 : j + 1 < s.J) :
    lowerC q s j * around s.J l r (fun k => sol.getD (k - 1) 0) (j - 1) + diagC q s j * around s.J l r (fun k => sol.getD (k - 1) 0) j +
      upperC q s j * around s.J l r (fun k => sol.getD (k - 1) 0) (j + 1) =
    1 / 2 * (s.dx * s.dx) * s.dt * (q.f s.tCurr (j * s.dx) + q.f s.tPrev (j * s.dx)) +
      lowerO q s j * around s.J 0 0 u (j - 1) + diagO q s j * around s.J 0 0 u j + upperO q s j * around s.J 0 0 u (j + 1) := by
  obtain ⟨i, rfl⟩ : ∃ i, j = i + 1 := ⟨j - 1, by omega⟩
  have hi : i < s.J - 2 := by omega
  have := h.2.2 i hi
  unfold matC at this
  rw [triMat_row _ _ _ hi] at this
  unfold entry at this
  rw [vec_getD _ _ hi] at this
  unfold rhsC at this
  have a1 : ∀ (l r : ℝ) w, around s.J l r w (i + 1) = w (i + 1) := by
    intro l r w
    unfold around; rw [if_pos (by omega)]
  have a0 : ∀ (l r : ℝ) w, around s.J l r w (i + 1 - 1) = if i = 0 then l else w i := by
    intro l r w
    unfold around
    by_cases h0 : i = 0
    · rw [if_neg (by omega), if_neg (by omega), if_pos h0]
    · rw [if_pos (by omega), if_neg h0]; rfl
  have a2 : ∀ (l r : ℝ) w, around s.J l r w (i + 1 + 1) = if i + 1 = s.J - 2 then r else w (i + 2) := by
    intro l r w
    unfold around
    by_cases h0 : i + 1 = s.J - 2
    · rw [if_neg (by omega), if_pos (by omega), if_pos h0]
    · rw [if_pos (by omega), if_neg h0]
  rw [a0, a1, a2, a0, a1, a2]
  simp only [Nat.add_sub_cancel, show i + 2 - 1 = i + 1 by omega] at this ⊢
  by_cases c1 : i = 0 <;> by_cases c2 : i + 1 = s.J - 2
  · rw [if_pos c1, if_neg (show ¬ i + 1 < s.J - 2 by omega), if_pos c1, if_pos c2, if_pos c1, if_neg (show ¬ i + 1 < s.J - 2 by omega)] at this
    rw [if_pos c1, if_pos c2, if_pos c1, if_pos c2]
    linear_combination this
  · rw [if_pos c1, if_pos (show i + 1 < s.J - 2 by omega), if_pos c1, if_neg c2, if_pos c1, if_pos (show i + 1 < s.J - 2 by omega)] at this
    rw [if_pos c1, if_neg c2, if_pos c1, if_neg c2]
    linear_combination this
  · rw [if_neg c1, if_neg (show ¬ i + 1 < s.J - 2 by omega), if_neg c1, if_pos c2, if_neg c1, if_neg (show ¬ i + 1 < s.J - 2 by omega)] at this
    rw [if_neg c1, if_pos c2, if_neg c1, if_pos c2]
    linear_combination this
  · rw [if_neg c1, if_pos (show i + 1 < s.J - 2 by omega), if_neg c1, if_neg c2, if_neg c1, if_pos (show i + 1 < s.J - 2 by omega)] at this
    rw [if_neg c1, if_neg c2, if_neg c1, if_neg c2]
    linear_combination this

theorem cn_scheme {w z : ℕ → ℝ} (hdt : s.dt ≠ 0) (hdx : s.dx ≠ 0) {j : ℕ}
    (h : lowerC q s j * w (j - 1) + diagC q s j * w j + upperC q s j * w (j + 1) =
      1 / 2 * (s.dx * s.dx) * s.dt * (q.f s.tCurr (j * s.dx) + q.f s.tPrev (j * s.dx)) +
      lowerO q s j * z (j - 1) + diagO q s j * z j + upperO q s j * z (j + 1)) :
    (w j - z j) / s.dt = 1 / 2 * central q s.dx s.tPrev z j + 1 / 2 * central q s.dx s.tCurr w j := by
  unfold lowerC diagC upperC lowerO diagO upperO at h
  unfold central
  field_simp
  linear_combination (-4) * h

end Fdm
end Verif
