import Verif.Spec.Outcomes
import Verif.Spec.MonteCarloSpec
import Verif.Lemmas.StockModel

/-!
# Properties C40, C41, C42: number generators
-/

set_option linter.unusedSectionVars false

namespace Verif
open Spec

/-! ## C40 -/

section
variable {Q F : Type} [Fl F] [Add F] [Sub F] [Mul F] [Div F] [Neg F]

namespace Quasi

/-- The generator will serve the coordinates `cs`. -/
def Serves (q : Sequence Q F) (st : State Q F) (cs : List F) : Prop :=
  ∃ pts s', Draws q.generate st.seq pts s' ∧ (∀ p ∈ pts, p.length = st.dim) ∧
    st.point.length = st.dim ∧ st.step ≤ st.dim ∧ 0 < st.dim ∧ st.dim ≤ INT_MAX ∧
    cs = st.point.drop st.step ++ pts.flatten

theorem emit_serves {q : Sequence Q F} {st : State Q F} {c : F} {cs : List F} (d : Dist F)
    (hlt : st.step < st.dim) (h : Serves q st (c :: cs)) :
    ∃ st', emit q d st = (d.invCdf (c / q.scale), st') ∧ Serves q st' cs := by
  obtain ⟨pts, s', h1, h2, h3, h4, h5, h6, h7⟩ := h
  have hlt' : st.step < st.point.length := by omega
  rw [List.drop_eq_getElem_cons hlt', List.cons_append, List.cons.injEq] at h7
  obtain ⟨rfl, rfl⟩ := h7
  refine ⟨{ st with step := st.step + 1 }, ?_, pts, s', h1, h2, h3, hlt, h5, h6, rfl⟩
  simp only [emit, vget, List.getElem?_eq_getElem hlt']
  rw [if_pos (by omega)]

theorem draw_serves {q : Sequence Q F} {st : State Q F} {c : F} {cs : List F} (d : Dist F)
    (h : Serves q st (c :: cs)) :
    ∃ st', draw q d st = (d.invCdf (c / q.scale), st') ∧ Serves q st' cs := by
  by_cases hlt : st.step < st.dim
  · have hr : refill q st = (.ok (), st) := by simp [refill, Nat.not_le.mpr hlt]
    obtain ⟨st', e, h'⟩ := emit_serves d hlt h
    refine ⟨st', ?_, h'⟩
    simp only [draw]
    rw [Eff.bind_of_ok hr]
    exact e
  · obtain ⟨pts, s', h1, h2, h3, h4, h5, h6, h7⟩ := h
    have hs : st.step = st.dim := by omega
    rw [hs, List.drop_eq_nil_of_le h3.le, List.nil_append] at h7
    cases h1 with
    | nil => simp at h7
    | @cons _ s₁ _ p pts hg ht =>
      have hp : p.length = st.dim := h2 p (by simp)
      have hr : refill q st = (.ok (), { st with point := p, seq := s₁, step := 0 }) := by
        simp [refill, hs, hg]
      obtain ⟨st', e, h'⟩ := emit_serves (q := q) (st := { st with point := p, seq := s₁, step := 0 }) (c := c)
        (cs := cs) d h5 ⟨pts, s', ht, fun x hx => h2 x (by simp [hx]), hp, Nat.zero_le _, h5, h6, by
          simpa using h7⟩
      refine ⟨st', ?_, h'⟩
      simp only [draw]
      rw [Eff.bind_of_ok hr]
      exact e

/-- The generator as constructed serves the coordinates of all points. -/
theorem construct_serves {q : Sequence Q F} {dim seed : ℕ} (h0 : 0 < dim) (hm : dim ≤ INT_MAX) {s0 s' : Q}
    (hq : q.seeded dim seed = .ok s0) {pts : List (List F)} (hp : Draws q.generate s0 pts s')
    (hl : ∀ p ∈ pts, p.length = dim) (hne : pts ≠ []) :
    ∃ st, construct q dim seed = .ok st ∧ st.dim = dim ∧ Serves q st pts.flatten := by
  cases hp with
  | nil => exact absurd rfl hne
  | @cons _ s₁ _ p pts hg ht =>
    refine ⟨{ dim := dim, seed := seed, step := 0, point := p, seq := s₁ }, ?_, rfl, pts, s', ht,
      fun x hx => hl x (by simp [hx]), hl p (by simp), Nat.zero_le _, h0, hm, by simp⟩
    simp [construct, hq, hg]

theorem outcomes_serves {q : Sequence Q F} : ∀ (ds : List (Dist F)) {st : State Q F} {cs : List F},
    Serves q st cs → ds.length ≤ cs.length →
    outcomes (draw q) ds st = List.zipWith (fun d c => d.invCdf (c / q.scale)) ds cs
  | [], _, _, _, _ => by simp [outcomes]
  | d :: ds, st, cs, h, hl => by
    cases cs with
    | nil => simp at hl
    | cons c cs =>
      obtain ⟨st', e, h'⟩ := draw_serves d h
      simp only [outcomes, e, List.zipWith_cons_cons]
      rw [outcomes_serves ds h' (by simpa using hl)]

theorem flatten_getElem? {d : ℕ} (hd : 0 < d) : ∀ (pts : List (List F)), (∀ p ∈ pts, p.length = d) → ∀ k,
    pts.flatten[k]? = (pts[k / d]?).bind fun p => p[k % d]?
  | [], _, k => by simp
  | p :: pts, h, k => by
    have hp : p.length = d := h p (by simp)
    rw [List.flatten_cons]
    by_cases hk : k < d
    · rw [List.getElem?_append_left (by omega), Nat.div_eq_of_lt hk, Nat.mod_eq_of_lt hk]
      simp
    · have hk' : d ≤ k := not_lt.mp hk
      rw [List.getElem?_append_right (by omega), flatten_getElem? hd pts (fun x hx => h x (by simp [hx])), hp,
        Nat.mod_eq_sub_mod hk', Nat.div_eq_sub_div hd hk']
      simp

end Quasi

/-- **C40.** The `k`-th draw of a quasi random generator of dimension `d` is the inverse distribution
function at coordinate `k mod d` of point `k / d` of the sequence, scaled; whatever distributions the
draws are from, and whether or not earlier draws threw. -/
theorem C40_draws (q : Quasi.Sequence Q F) {dim seed : ℕ} (h0 : 0 < dim) (hm : dim ≤ INT_MAX) {s0 s' : Q}
    (hq : q.seeded dim seed = .ok s0) {pts : List (List F)} (hp : Draws q.generate s0 pts s')
    (hl : ∀ p ∈ pts, p.length = dim) (hne : pts ≠ []) :
    ∃ st, Quasi.construct q dim seed = .ok st ∧
      ∀ ds : List (Dist F), ds.length ≤ dim * pts.length → ∀ (k : ℕ) (d : Dist F), ds[k]? = some d →
        ∃ p u, pts[k / dim]? = some p ∧ p[k % dim]? = some u ∧
          (outcomes (Quasi.draw q) ds st)[k]? = some (d.invCdf (u / q.scale)) := by
  obtain ⟨st, h1, -, h2⟩ := Quasi.construct_serves h0 hm hq hp hl hne
  refine ⟨st, h1, fun ds hds k d hk => ?_⟩
  have hlen : pts.flatten.length = dim * pts.length := by
    rw [List.length_flatten, List.map_congr_left (g := fun _ => dim) hl]
    simp [mul_comm]
  have hkl : k < ds.length := (List.getElem?_eq_some_iff.mp hk).1
  have hu : k < pts.flatten.length := by omega
  have hf := Quasi.flatten_getElem? h0 pts hl k
  rw [List.getElem?_eq_getElem hu] at hf
  obtain ⟨p, hp1, hp2⟩ := Option.bind_eq_some_iff.mp hf.symm
  refine ⟨p, _, hp1, hp2, ?_⟩
  rw [Quasi.outcomes_serves ds h2 (by omega), List.getElem?_zipWith, hk, List.getElem?_eq_getElem hu]

/-! ### GBM paths -/

namespace Quasi

/-- A GBM loop on given coordinates. -/
def gbmOn (scale : F) (v : View F) (dt : F) : List F → F → Res (List F)
  | [], _ => .ok []
  | c :: cs, S => do
    let z ← moroInvCdf (c / scale)
    let S' := Sim.gbmUpdate v dt S z
    let rest ← gbmOn scale v dt cs S'
    return S' :: rest

theorem gbm_serves {q : Sequence Q F} (v : View F) (dt : F) : ∀ (cs : List F) {rest : List F}
    {st : State Q F} (S : F), Serves q st (cs ++ rest) →
    ∃ st', Eff.unfoldN (Sim.gbmStep (gen q) v dt .stdNormal) cs.length S st =
      (gbmOn q.scale v dt cs S, st') ∧ (∀ l, gbmOn q.scale v dt cs S = .ok l → Serves q st' rest)
  | [], rest, st, S, h => ⟨st, rfl, fun _ _ => h⟩
  | c :: cs, rest, st, S, h => by
    obtain ⟨st₁, e, h₁⟩ := draw_serves .stdNormal h
    rw [show Dist.invCdf .stdNormal (c / q.scale) = moroInvCdf (c / q.scale) from rfl] at e
    simp only [List.length_cons, Eff.unfoldN, gbmOn]
    cases hz : moroInvCdf (c / q.scale) with
    | ok z =>
      rw [hz] at e
      obtain ⟨st₂, e2, h₂⟩ := gbm_serves v dt cs (Sim.gbmUpdate v dt S z) h₁
      have e1 : Sim.gbmStep (gen q) v dt .stdNormal S st =
          (.ok (Sim.gbmUpdate v dt S z, Sim.gbmUpdate v dt S z), st₁) := by
        rw [Sim.gbmStep, Eff.bind_of_ok (show Sim.draw (gen q) .stdNormal st = (.ok z, st₁) from e)]
        rfl
      rw [Eff.bind_of_ok e1]
      simp only [Res.bind_ok]
      cases hl : gbmOn q.scale v dt cs (Sim.gbmUpdate v dt S z) with
      | ok l =>
        rw [hl] at e2
        rw [Eff.bind_of_ok e2]
        exact ⟨st₂, rfl, fun _ _ => h₂ l hl⟩
      | throw x =>
        rw [hl] at e2
        rw [Eff.bind_of_throw e2]
        exact ⟨st₂, rfl, fun l hx => by simp at hx⟩
      | ub =>
        rw [hl] at e2
        rw [Eff.bind_of_ub e2]
        exact ⟨st₂, rfl, fun l hx => by simp at hx⟩
    | throw x =>
      rw [hz] at e
      have e1 : Sim.gbmStep (gen q) v dt .stdNormal S st = (.throw x, st₁) := by
        rw [Sim.gbmStep, Eff.bind_of_throw (show Sim.draw (gen q) .stdNormal st = (.throw x, st₁) from e)]
      rw [Eff.bind_of_throw e1]
      exact ⟨st₁, rfl, fun l hx => by simp at hx⟩
    | ub =>
      rw [hz] at e
      have e1 : Sim.gbmStep (gen q) v dt .stdNormal S st = (.ub, st₁) := by
        rw [Sim.gbmStep, Eff.bind_of_ub (show Sim.draw (gen q) .stdNormal st = (.ub, st₁) from e)]
      rw [Eff.bind_of_ub e1]
      exact ⟨st₁, rfl, fun l hx => by simp at hx⟩

theorem prices_serves [FlInt F] {q : Sequence Q F} (v : View F) (T : F) {dim : ℕ} (hm : dim ≤ INT_MAX) {p rest : List F}
    (hp : p.length = dim) {st : State Q F} (h : Serves q st (p ++ rest)) :
    ∃ st', Sim.prices (gen q) dim v T .gbm st = (gbmOn q.scale v (Sim.dt T dim) p v.price, st') ∧
      (∀ l, gbmOn q.scale v (Sim.dt T dim) p v.price = .ok l → Serves q st' rest) := by
  obtain ⟨st', e, h'⟩ := gbm_serves v (Sim.dt T dim) p v.price h
  refine ⟨st', ?_, h'⟩
  rw [← e, hp]
  simp only [Sim.prices, Sim.gbm]
  rw [Eff.bind_of_ok (show Sim.newDist (gen q) (.ok .stdNormal) st = (.ok .stdNormal, st) from rfl),
    Eff.unfoldInt_of_le hm]

theorem paths_serves [FlInt F] {q : Sequence Q F} (v : View F) (T : F) {dim : ℕ} (hm : dim ≤ INT_MAX) :
    ∀ {paths : List (List F)} {pts : List (List F)} {st st' : State Q F}, Serves q st pts.flatten →
    (∀ p ∈ pts, p.length = dim) → Draws (Sim.prices (gen q) dim v T .gbm) st paths st' →
    paths.length ≤ pts.length → Serves q st' (pts.drop paths.length).flatten := by
  intro paths
  induction paths with
  | nil =>
    intro pts st st' h _ hd _
    cases hd
    simpa using h
  | cons x paths ih =>
    intro pts st st' h hl hd hlen
    cases hd with
    | @cons _ s₁ _ _ _ hx ht =>
      cases pts with
      | nil => simp at hlen
      | cons p pts =>
        obtain ⟨st₁, e, h₁⟩ := prices_serves v T hm (hl p (by simp)) (rest := pts.flatten) (by simpa using h)
        rw [e] at hx
        obtain ⟨e1, rfl⟩ := Prod.mk.injEq .. ▸ hx
        have := ih (h₁ x e1) (fun y hy => hl y (by simp [hy])) ht (by simpa using hlen)
        simpa using this

end Quasi

/-- **C40.** With a quasi random generator, as long as no simulation throws, GBM path number `i` is a
function of point number `i` alone: the same function for all sequences, seeds and `i`.  Missing for
the full claim: paths simulated after one that threw, see `C40_fails`. -/
theorem C40_gbmPath_partial [FlInt F] (v : View F) (T scale : F) {dim : ℕ} (h0 : 0 < dim) (hm : dim ≤ INT_MAX) :
    ∃ f : List F → Res (List F),
      ∀ {Q : Type} (q : Quasi.Sequence Q F) (_ : q.scale = scale) (seed : ℕ) (s0 s' : Q)
        (_ : q.seeded dim seed = .ok s0) (pts : List (List F)) (_ : Draws q.generate s0 pts s')
        (_ : ∀ p ∈ pts, p.length = dim) (_ : pts ≠ []),
      ∃ st, Quasi.construct q dim seed = .ok st ∧
        ∀ (paths : List (List F)) (st' : Quasi.State Q F) (p : List F),
          Draws (Sim.prices (Quasi.gen q) dim v T .gbm) st paths st' → pts[paths.length]? = some p →
          (Sim.prices (Quasi.gen q) dim v T .gbm st').1 = f p := by
  refine ⟨fun p => Quasi.gbmOn scale v (Sim.dt T dim) p v.price, ?_⟩
  rintro Q q rfl seed s0 s' hq pts hp hl hne
  obtain ⟨st, h1, -, h2⟩ := Quasi.construct_serves h0 hm hq hp hl hne
  refine ⟨st, h1, fun paths st' p hd hpi => ?_⟩
  obtain ⟨hlt, hpe⟩ := List.getElem?_eq_some_iff.mp hpi
  have h3 := Quasi.paths_serves v T hm h2 hl hd hlt.le
  rw [List.drop_eq_getElem_cons hlt, hpe, List.flatten_cons] at h3
  obtain ⟨st₂, e, -⟩ := Quasi.prices_serves v T hm (hl p (hpe ▸ List.getElem_mem hlt)) h3
  rw [e]

end

/-- The sequence that runs through a fixed list of points and then throws. -/
def listSeq (pts : List (List ℝ)) : Quasi.Sequence (List (List ℝ)) ℝ where
  seeded _ _ := .ok pts
  generate
    | [] => (.throw ⟨.runtimeError, "range"⟩, [])
    | p :: ps => (.ok p, ps)
  scale := 1

theorem listSeq_draws (pts l : List (List ℝ)) : Draws (listSeq pts).generate l l [] := by
  induction l with
  | nil => exact .nil _
  | cons p l ih => exact .cons rfl ih

theorem moro_half : moroInvCdf (1 / 2 : ℝ) = .ok 0 := by
  norm_num [moroInvCdf, moroCentral, Fl.gt, Fl.ge]

/-- The part of the claim C40 that fails: when a simulation throws in the middle of a point (a
coordinate 0 or 1) and the exception is caught, the paths that follow straddle two points; they are
not functions of the point with their number. -/
theorem C40_fails : ¬ ∃ f : List ℝ → Res (List ℝ),
    ∀ (pts : List (List ℝ)), (∀ p ∈ pts, p.length = 2) → ∀ st, Quasi.construct (listSeq pts) 2 0 = .ok st →
      ∀ (n i : ℕ) (p : List ℝ), i < n → pts[i]? = some p →
      (outcomes (fun _ : Unit => Sim.prices (Quasi.gen (listSeq pts)) 2 ⟨100, 1 / 5, none, 1 / 20⟩ 1 .gbm)
        (List.replicate n ()) st)[i]? = some (f p) := by
  rintro ⟨f, hf⟩
  have thr : moroInvCdf (0 : ℝ) = .throw ⟨.invalidArgument, "quantile must be between (0,1)"⟩ := by
    norm_num [moroInvCdf, invalidArg]
  have step : ∀ a : ℝ, ∃ st st', Quasi.construct (listSeq [[0, a], [1 / 2, 1 / 2]]) 2 0 = .ok st ∧
      Quasi.Serves (listSeq [[0, a], [1 / 2, 1 / 2]]) st' ([a, 1 / 2] ++ [1 / 2]) ∧
      (Sim.prices (Quasi.gen (listSeq [[0, a], [1 / 2, 1 / 2]])) 2 ⟨100, 1 / 5, none, 1 / 20⟩ 1 .gbm st).2 = st' := by
    intro a
    refine ⟨⟨2, 0, 0, [0, a], [[1 / 2, 1 / 2]]⟩, ⟨2, 0, 1, [0, a], [[1 / 2, 1 / 2]]⟩, rfl, ?_, ?_⟩
    · exact ⟨[[1 / 2, 1 / 2]], [], listSeq_draws _ _, by simp, rfl, by simp, by simp, by norm_num [INT_MAX], by simp⟩
    · obtain ⟨st₁, e, h⟩ := Quasi.emit_serves (q := listSeq [[0, a], [1 / 2, 1 / 2]])
        (st := ⟨2, 0, 0, [0, a], [[1 / 2, 1 / 2]]⟩) (c := 0) (cs := [a, 1 / 2, 1 / 2]) .stdNormal (by simp)
        ⟨[[1 / 2, 1 / 2]], [], listSeq_draws _ _, by simp, rfl, by simp, by simp, by norm_num [INT_MAX], by simp⟩
      have e2 : st₁ = ⟨2, 0, 1, [0, a], [[1 / 2, 1 / 2]]⟩ := by
        have := congrArg Prod.snd e
        simpa [Quasi.emit, vget, INT_MAX] using this.symm
      subst e2
      have e3 : Sim.draw (Quasi.gen (listSeq [[0, a], [1 / 2, 1 / 2]])) (.stdNormal) ⟨2, 0, 0, [0, a], [[1 / 2, 1 / 2]]⟩ =
          (.throw ⟨.invalidArgument, "quantile must be between (0,1)"⟩, ⟨2, 0, 1, [0, a], [[1 / 2, 1 / 2]]⟩) := by
        have h : Dist.invCdf .stdNormal ((0 : ℝ) / (listSeq [[0, a], [1 / 2, 1 / 2]]).scale) =
            .throw ⟨.invalidArgument, "quantile must be between (0,1)"⟩ := by
          rw [zero_div]
          exact thr
        rw [h] at e
        exact e
      simp only [Sim.prices, Sim.gbm]
      rw [Eff.bind_of_ok (show Sim.newDist (Quasi.gen (listSeq [[0, a], [1 / 2, 1 / 2]])) (.ok .stdNormal)
        ⟨2, 0, 0, [0, a], [[1 / 2, 1 / 2]]⟩ = (.ok .stdNormal, _) from rfl), Eff.unfoldInt_of_le (by norm_num [INT_MAX])]
      simp only [Eff.unfoldN]
      rw [Eff.bind_of_throw]
      rw [Sim.gbmStep, Eff.bind_of_throw]
      exact e3
  have key : ∀ a : ℝ, f [1 / 2, 1 / 2] = Quasi.gbmOn (1 : ℝ) ⟨100, 1 / 5, none, 1 / 20⟩ (Sim.dt 1 2) [a, 1 / 2] 100 := by
    intro a
    obtain ⟨st, st', h1, h2, h3⟩ := step a
    obtain ⟨st₂, e, -⟩ := Quasi.prices_serves ⟨100, 1 / 5, none, 1 / 20⟩ 1 (dim := 2) (by norm_num [INT_MAX]) rfl h2
    have := hf _ (by simp) st h1 2 1 [1 / 2, 1 / 2] (by norm_num) rfl
    simp only [List.replicate, outcomes, h3, e] at this
    simpa [listSeq] using this.symm
  have k1 := key 0
  have k2 := key (1 / 2)
  have h0 : ∀ (v : View ℝ) (dt S : ℝ), Quasi.gbmOn (1 : ℝ) v dt [0, 1 / 2] S =
      .throw ⟨.invalidArgument, "quantile must be between (0,1)"⟩ := by
    intro v dt S
    rw [Quasi.gbmOn, div_one, thr]
    rfl
  rw [h0] at k1
  rw [k1, Quasi.gbmOn, div_one, moro_half] at k2
  simp only [Res.bind_ok, Quasi.gbmOn, div_one, moro_half] at k2
  exact absurd k2 (by simp [pure])

/-- Three points in dimension 2; the fourth draw is from point 1, coordinate 1. -/
example : ∃ st, Quasi.construct (listSeq [[1 / 2, 1 / 4], [3 / 4, 1 / 2], [1 / 8, 5 / 8]]) 2 7 = .ok st ∧
    (outcomes (Quasi.draw (listSeq [[1 / 2, 1 / 4], [3 / 4, 1 / 2], [1 / 8, 5 / 8]]))
      [.stdNormal, .poisson 1, .stdNormal, .stdNormal, .stdNormal] st)[3]? = some (.ok 0) := by
  obtain ⟨st, h1, h2⟩ := C40_draws (listSeq [[1 / 2, 1 / 4], [3 / 4, 1 / 2], [1 / 8, 5 / 8]]) (dim := 2) (seed := 7)
    (by norm_num) (by norm_num [INT_MAX]) rfl (listSeq_draws _ _) (by simp) (by simp)
  obtain ⟨p, u, hp, hu, h⟩ := h2 [.stdNormal, .poisson 1, .stdNormal, .stdNormal, .stdNormal] (by simp) 3 .stdNormal rfl
  refine ⟨st, h1, ?_⟩
  simp at hp
  subst hp
  simp at hu
  subst hu
  rw [h, show (2⁻¹ : ℝ) / (listSeq [[1 / 2, 1 / 4], [3 / 4, 1 / 2], [1 / 8, 5 / 8]]).scale = 1 / 2 by norm_num [listSeq]]
  exact congrArg _ moro_half

/-- The points of the example meet the hypotheses of `C40_gbmPath_partial`. -/
example : ∃ st paths st', Quasi.construct (listSeq [[1 / 2, 1 / 2], [1 / 2, 1 / 2]]) 2 7 = .ok st ∧
    Draws (Sim.prices (Quasi.gen (listSeq [[1 / 2, 1 / 2], [1 / 2, 1 / 2]])) 2 ⟨100, 1 / 5, none, 1 / 20⟩ 1 .gbm)
      st paths st' ∧ paths.length = 1 := by
  obtain ⟨st, h1, -, h2⟩ := Quasi.construct_serves (q := listSeq [[1 / 2, 1 / 2], [1 / 2, 1 / 2]]) (dim := 2) (seed := 7)
    (by norm_num) (by norm_num [INT_MAX]) rfl (listSeq_draws _ _) (by simp) (by simp)
  obtain ⟨st', e, -⟩ := Quasi.prices_serves (F := ℝ) ⟨100, 1 / 5, none, 1 / 20⟩ 1 (dim := 2) (p := [1 / 2, 1 / 2])
    (rest := [1 / 2, 1 / 2]) (by norm_num [INT_MAX]) rfl h2
  have : ∃ l, Quasi.gbmOn (listSeq [[1 / 2, 1 / 2], [1 / 2, 1 / 2]]).scale ⟨100, 1 / 5, none, 1 / 20⟩ (Sim.dt 1 2)
      [1 / 2, 1 / 2] 100 = .ok l := by
    rw [show (listSeq [[1 / 2, 1 / 2], [1 / 2, 1 / 2]]).scale = 1 from rfl]
    simp only [Quasi.gbmOn, div_one, moro_half, Res.bind_ok]
    exact ⟨_, rfl⟩
  obtain ⟨l, hl⟩ := this
  exact ⟨st, [l], st', h1, .cons (e.trans (congrArg (·, st') hl)) (.nil _), rfl⟩

/-! ## C41 -/

section
variable {E F : Type} [Fl F] [Div F]

/-- The first half of the claim C41 fails: the seed does not influence the stream.  Whatever the
engine and the sequence of distributions, two generators give the same draws for all pairs of seeds,
also when the seed comes from the random device, and all dimensions. -/
theorem C41_fails (e : Engine E F) (dim dim' seed seed' : ℕ) (ds : List (Dist F)) :
    outcomes (Pseudo.draw e) ds (Pseudo.construct e dim seed) =
      outcomes (Pseudo.draw e) ds (Pseudo.construct e dim' seed') ∧
    outcomes (Pseudo.draw e) ds (Pseudo.construct e dim seed) =
      outcomes (Pseudo.draw e) ds (Pseudo.constructRd e dim' seed') := by
  have key : ∀ (ds : List (Dist F)) (s s' : Pseudo.State E), s.engine = s'.engine →
      outcomes (Pseudo.draw e) ds s = outcomes (Pseudo.draw e) ds s' := by
    intro ds
    induction ds with
    | nil => intros; rfl
    | cons d ds ih =>
      intro s s' h
      simp only [outcomes, Pseudo.draw, h]
      exact congrArg _ (ih _ _ rfl)
  exact ⟨key ds _ _ rfl, key ds _ _ rfl⟩

/-- **C41.** What holds of the claim: two generators built with the same dimension and seed give the
same stream: every draw succeeds and it is the value the engine, in its default state, samples from
the laws of the distributions in order.  Missing: different seeds do not give different streams. -/
theorem C41_partial (e : Engine E F) (dim seed : ℕ) :
    ∃ stream : List (Dist.StdLaw F) → List F, ∀ ds : List (Dist F),
      outcomes (Pseudo.draw e) ds (Pseudo.construct e dim seed) = (stream (ds.map Dist.law)).map .ok ∧
      ∀ ls, (stream ls).length = ls.length := by
  let go : List (Dist.StdLaw F) → E → List F := fun ls => ls.rec (fun _ => [])
    (fun l _ ih x => (e.sample l x).1 :: ih (e.sample l x).2)
  refine ⟨fun ls => go ls e.default, fun ds => ⟨?_, ?_⟩⟩
  · have : ∀ (ds : List (Dist F)) (s : Pseudo.State E),
        outcomes (Pseudo.draw e) ds s = (go (ds.map Dist.law) s.engine).map .ok := by
      intro ds
      induction ds with
      | nil => intro s; rfl
      | cons d ds ih =>
        intro s
        have : go ((d :: ds).map Dist.law) s.engine =
          (e.sample d.law s.engine).1 :: go (ds.map Dist.law) (e.sample d.law s.engine).2 := rfl
        rw [this, List.map_cons, ← ih ⟨s.dim, s.seed, (e.sample d.law s.engine).2⟩]
        rfl
    exact this ds _
  · intro ls
    have : ∀ (ls : List (Dist.StdLaw F)) (x : E), (go ls x).length = ls.length := by
      intro ls
      induction ls with
      | nil => intro x; rfl
      | cons l ls ih => intro x; simp only [List.length_cons]; rw [← ih (e.sample l x).2]; rfl
    exact this ls _

end

/-- A linear congruential engine; seeds 1 and 2 give the same draws. -/
example : outcomes (Pseudo.draw (F := ℝ) (⟨1, fun s => s, fun _ s => (s, (5 * s + 3) % 16), fun _ s => s⟩ : Engine ℕ ℝ))
      [.stdNormal, .poisson 1] (Pseudo.construct (⟨1, fun s => s, fun _ s => ((s : ℝ), (5 * s + 3) % 16), fun _ s => s⟩ : Engine ℕ ℝ) 1 1) =
    [.ok 1, .ok 8] ∧
    outcomes (Pseudo.draw (F := ℝ) (⟨1, fun s => s, fun _ s => (s, (5 * s + 3) % 16), fun _ s => s⟩ : Engine ℕ ℝ))
      [.stdNormal, .poisson 1] (Pseudo.construct (⟨1, fun s => s, fun _ s => ((s : ℝ), (5 * s + 3) % 16), fun _ s => s⟩ : Engine ℕ ℝ) 1 2) =
    [.ok 1, .ok 8] := by
  constructor <;> norm_num [outcomes, Pseudo.draw, Pseudo.construct]

/-! ## C42 -/

namespace Eff
variable {σ α β : Type}

/-- `x` always throws from states in `W`. -/
def Thr (W : σ → Prop) (x : Eff σ α) : Prop := ∀ s, W s → ∃ e s', x s = (.throw e, s')

/-- `x` throws or returns, staying in `W`, from states in `W`. -/
def NoUb (W : σ → Prop) (x : Eff σ α) : Prop := ∀ s, W s →
  (∃ e s', x s = (.throw e, s')) ∨ ∃ a s', x s = (.ok a, s') ∧ W s'

theorem Thr.bind {W : σ → Prop} {x : Eff σ α} (h : Thr W x) (f : α → Eff σ β) : Thr W (x >>= f) := by
  intro s hs
  obtain ⟨e, s', h⟩ := h s hs
  exact ⟨e, s', Eff.bind_of_throw h⟩

theorem NoUb.bind_thr {W : σ → Prop} {x : Eff σ α} (h : NoUb W x) {f : α → Eff σ β} (hf : ∀ a, Thr W (f a)) :
    Thr W (x >>= f) := by
  intro s hs
  obtain ⟨e, s', h⟩ | ⟨a, s', h, hw⟩ := h s hs
  · exact ⟨e, s', Eff.bind_of_throw h⟩
  · rw [Eff.bind_of_ok h]
    exact hf a s' hw

/-- `x` never returns. -/
def Never (x : Eff σ α) : Prop := ∀ s a s', x s ≠ (.ok a, s')

theorem Never.bind {x : Eff σ α} (h : Never x) (f : α → Eff σ β) : Never (x >>= f) := by
  intro s b s' hx
  rw [Eff.bind_ok_iff] at hx
  obtain ⟨a, s₁, h1, -⟩ := hx
  exact h s a s₁ h1

theorem Never.of_bind {x : Eff σ α} {f : α → Eff σ β} (h : ∀ s a s', x s = (.ok a, s') → Never (f a)) :
    Never (x >>= f) := by
  intro s b s' hx
  rw [Eff.bind_ok_iff] at hx
  obtain ⟨a, s₁, h1, h2⟩ := hx
  exact h s a s₁ h1 s₁ b s' h2

theorem Never.unfoldInt {body : α → Eff σ (α × β)} (h : ∀ a, Never (body a)) {n : ℕ} (hn : 0 < n) (a : α) :
    Never (Eff.unfoldInt body n a) := by
  obtain ⟨m, hm⟩ : ∃ m, min n (INT_MAX + 1) = m + 1 := ⟨min n (INT_MAX + 1) - 1, by simp [INT_MAX]; omega⟩
  rw [Eff.unfoldInt, hm, Eff.unfoldN]
  exact ((h a).bind _).bind _

theorem NoUb.bind_thr' {W : σ → Prop} {x : Eff σ α} (h : NoUb W x) {f : α → Eff σ β}
    (hf : ∀ s a s', x s = (.ok a, s') → Thr W (f a)) : Thr W (x >>= f) := by
  intro s hs
  obtain ⟨e, s', h⟩ | ⟨a, s', h, hw⟩ := h s hs
  · exact ⟨e, s', Eff.bind_of_throw h⟩
  · rw [Eff.bind_of_ok h]
    exact hf s a s' h s' hw

theorem Thr.unfoldInt {W : σ → Prop} {body : α → Eff σ (α × β)} (h : ∀ a, Thr W (body a)) {n : ℕ} (hn : 0 < n) (a : α) :
    Thr W (Eff.unfoldInt body n a) := by
  obtain ⟨m, hm⟩ : ∃ m, min n (INT_MAX + 1) = m + 1 := ⟨min n (INT_MAX + 1) - 1, by simp [INT_MAX]; omega⟩
  rw [Eff.unfoldInt, hm, Eff.unfoldN]
  exact ((h a).bind _).bind _

end Eff

section
variable {Q F : Type} [Fl F] [Add F] [Sub F] [Mul F] [Div F] [Neg F]

namespace Quasi

theorem invCdf_thr {d : Dist F} (h : d ≠ .stdNormal) (u : F) : ∃ e, d.invCdf u = .throw e := by
  cases d with
  | stdNormal => exact absurd rfl h
  | _ => exact ⟨_, rfl⟩

/-- A sequence whose points have the dimension of the generator. -/
def Wf (q : Sequence Q F) (st : State Q F) : Prop :=
  0 < st.dim ∧ st.dim ≤ INT_MAX ∧ st.point.length = st.dim ∧
    ∀ s, (∃ e s', q.generate s = (.throw e, s')) ∨ ∃ p s', q.generate s = (.ok p, s') ∧ p.length = st.dim

theorem refill_wf (q : Sequence Q F) (st : State Q F) (h : Wf q st) :
    (∃ e s', refill q st = (.throw e, s')) ∨
      ∃ s', refill q st = (.ok (), s') ∧ Wf q s' ∧ s'.step < s'.point.length ∧ s'.step < INT_MAX := by
  obtain ⟨h0, h1, h2, h3⟩ := h
  unfold refill
  by_cases hs : st.dim ≤ st.step
  · rw [if_pos hs]
    obtain ⟨e, s', hg⟩ | ⟨p, s', hg, hp⟩ := h3 st.seq
    · rw [hg]
      exact .inl ⟨_, _, rfl⟩
    · rw [hg]
      exact .inr ⟨_, rfl, ⟨h0, h1, hp, h3⟩, by simpa [hp] using h0, by simp [INT_MAX]⟩
  · rw [if_neg hs]
    exact .inr ⟨_, rfl, ⟨h0, h1, h2, h3⟩, by omega, by omega⟩

theorem moro_noUb (u : F) : (∃ e, moroInvCdf u = .throw e) ∨ ∃ x, moroInvCdf u = .ok x := by
  unfold moroInvCdf
  split
  · exact .inl ⟨_, rfl⟩
  · dsimp only
    split
    · split
      · exact .inr ⟨_, rfl⟩
      · exact .inr ⟨_, rfl⟩
    · split
      · exact .inr ⟨_, rfl⟩
      · exact .inr ⟨_, rfl⟩

theorem draw_noUb (q : Sequence Q F) (d : Dist F) : Eff.NoUb (Wf q) (draw q d) := by
  intro st h
  obtain ⟨e, s', hr⟩ | ⟨s', hr, hw, hl, hm⟩ := refill_wf q st h
  · exact .inl ⟨e, s', Eff.bind_of_throw hr⟩
  · rw [show draw q d st = emit q d s' from Eff.bind_of_ok hr]
    simp only [emit, vget, List.getElem?_eq_getElem hl, if_pos hm]
    cases d with
    | stdNormal =>
      have hw' : Wf q { s' with step := s'.step + 1 } := hw
      obtain ⟨e, he⟩ | ⟨x, hx⟩ := moro_noUb (s'.point[s'.step] / q.scale)
      · exact .inl ⟨e, _, by rw [Dist.invCdf, he]⟩
      · exact .inr ⟨x, _, by rw [Dist.invCdf, hx], hw'⟩
    | _ => exact .inl ⟨_, _, rfl⟩

theorem draw_thr (q : Sequence Q F) {d : Dist F} (hd : d ≠ .stdNormal) : Eff.Thr (Wf q) (draw q d) := by
  intro st h
  obtain ⟨e, s', hr⟩ | ⟨s', hr, hw, hl, hm⟩ := refill_wf q st h
  · exact ⟨e, s', Eff.bind_of_throw hr⟩
  · rw [show draw q d st = emit q d s' from Eff.bind_of_ok hr]
    obtain ⟨e, he⟩ := invCdf_thr hd (s'.point[s'.step] / q.scale)
    simp only [emit, vget, List.getElem?_eq_getElem hl, if_pos hm, he]
    exact ⟨e, _, rfl⟩

theorem draw_not_ok (q : Sequence Q F) {d : Dist F} (hd : d ≠ .stdNormal) (st : State Q F) (x : F) (st' : State Q F) :
    draw q d st ≠ (.ok x, st') := by
  intro h
  rw [show draw q d st = (refill q >>= fun _ => emit q d) st from rfl, Eff.bind_ok_iff] at h
  obtain ⟨-, s₁, -, h⟩ := h
  unfold emit at h
  split at h
  · split at h
    · rename_i u _ _
      obtain ⟨e, he⟩ := invCdf_thr hd (u / q.scale)
      rw [he] at h
      simp at h
    · simp at h
  · simp at h
  · simp at h

theorem newDist_noUb (q : Sequence Q F) {d : Res (Dist F)} (hd : d ≠ .ub) :
    Eff.NoUb (Wf q) (Sim.newDist (gen q) d) := by
  intro s hs
  cases d with
  | ok d => exact .inr ⟨d, s, rfl, hs⟩
  | throw e => exact .inl ⟨e, s, rfl⟩
  | ub => exact absurd rfl hd

end Quasi

/-- The jump and gamma models. -/
inductive Jumpy : ModelKind F → Prop
  | bates (kappa theta sigmaV rho v0 lambda muJ sigmaJ : F) (disc : CIR F) :
      Jumpy (.bates kappa theta sigmaV rho v0 lambda muJ sigmaJ disc)
  | kou (lambda p eta1 eta2 muJ : F) : Jumpy (.kou lambda p eta1 eta2 muJ)
  | merton (lambda muJ sigmaJ : F) : Jumpy (.merton lambda muJ sigmaJ)
  | varianceGamma (nu theta omega : F) : Jumpy (.varianceGamma nu theta omega)

theorem mkPoisson_ne {x : F} {d : Dist F} (h : Dist.mkPoisson x = .ok d) : d ≠ .stdNormal := by
  unfold Dist.mkPoisson at h
  split at h
  · simp [invalidArg] at h
  · simp only [Res.ok.injEq] at h; subst h; simp

theorem mkGamma_ne {x y : F} {d : Dist F} (h : Dist.mkGamma x y = .ok d) : d ≠ .stdNormal := by
  unfold Dist.mkGamma at h
  split at h
  · simp [invalidArg] at h
  · simp only [Res.ok.injEq] at h; subst h; simp

theorem mk_ne_ub (x y : F) : Dist.mkPoisson x ≠ .ub ∧ Dist.mkGamma x y ≠ .ub ∧ Dist.mkNormal x y ≠ .ub ∧
    Dist.mkExponential x ≠ .ub ∧ Dist.mkUniform x y ≠ .ub := by
  refine ⟨?_, ?_, ?_, ?_, ?_⟩
  · unfold Dist.mkPoisson; split <;> simp [invalidArg]
  · unfold Dist.mkGamma; split <;> simp [invalidArg]
  · unfold Dist.mkNormal; split <;> simp [invalidArg]
  · unfold Dist.mkExponential; split <;> simp [invalidArg]
  · unfold Dist.mkUniform; split <;> simp [invalidArg]

variable [FlInt F]

/-- **C42.** With a quasi random generator no simulation of a jump or gamma model of at least one step
returns prices: for all parameters, numbers of steps, sequences and states of the generator. -/
theorem C42_neverReturns (q : Quasi.Sequence Q F) (steps : ℕ) (hs : 0 < steps) (v : View F) (T : F)
    (k : ModelKind F) (hk : Jumpy k) (st st' : Quasi.State Q F) (ps : List F) :
    Sim.prices (Quasi.gen q) steps v T k st ≠ (.ok ps, st') := by
  revert st ps st'
  have count : ∀ {d : Dist F}, d ≠ .stdNormal → Eff.Never (Sim.drawCount (Quasi.gen q) d) := fun hd =>
    Eff.Never.bind (fun s a s' => Quasi.draw_not_ok q hd s a s') _
  have main : Eff.Never (Sim.prices (Quasi.gen q) steps v T k) := by
    cases hk with
    | bates =>
      refine Eff.Never.of_bind fun _ _ _ _ => Eff.Never.of_bind fun _ d _ hd => Eff.Never.of_bind fun _ _ _ _ =>
        Eff.Never.unfoldInt (fun a => ?_) hs _
      have hd' := mkPoisson_ne (Sim.newDist_ok_iff.mp hd).1
      exact Eff.Never.of_bind fun _ _ _ _ => Eff.Never.of_bind fun _ _ _ _ => (count hd').bind _
    | kou =>
      refine Eff.Never.of_bind fun _ _ _ _ => Eff.Never.of_bind fun _ d _ hd => Eff.Never.of_bind fun _ _ _ _ =>
        Eff.Never.of_bind fun _ _ _ _ => Eff.Never.of_bind fun _ _ _ _ => Eff.Never.unfoldInt (fun a => ?_) hs _
      have hd' := mkPoisson_ne (Sim.newDist_ok_iff.mp hd).1
      exact Eff.Never.of_bind fun _ _ _ _ => (count hd').bind _
    | merton =>
      refine Eff.Never.of_bind fun _ _ _ _ => Eff.Never.of_bind fun _ d _ hd => Eff.Never.of_bind fun _ _ _ _ =>
        Eff.Never.unfoldInt (fun a => ?_) hs _
      have hd' := mkPoisson_ne (Sim.newDist_ok_iff.mp hd).1
      exact Eff.Never.of_bind fun _ _ _ _ => (count hd').bind _
    | varianceGamma =>
      refine Eff.Never.of_bind fun _ _ _ _ => Eff.Never.of_bind fun _ d _ hd =>
        Eff.Never.unfoldInt (fun a => ?_) hs _
      have hd' := mkGamma_ne (Sim.newDist_ok_iff.mp hd).1
      exact Eff.Never.bind (fun s a s' => Quasi.draw_not_ok q hd' s a s') _
  exact fun st st' ps => main st ps st'

/-- **C42.** It throws, when the points of the sequence have the dimension of the generator (between 1
and 2^31 - 1) and generating a point has defined behaviour. -/
theorem C42_throws (q : Quasi.Sequence Q F) {dim : ℕ} (h0 : 0 < dim) (hm : dim ≤ INT_MAX)
    (hq : ∀ s, (∃ e s', q.generate s = (.throw e, s')) ∨ ∃ p s', q.generate s = (.ok p, s') ∧ p.length = dim)
    (steps : ℕ) (hs : 0 < steps) (v : View F) (T : F)
    (k : ModelKind F) (hk : Jumpy k) (st : Quasi.State Q F) (hd : st.dim = dim) (hp : st.point.length = dim) :
    ∃ e st', Sim.prices (Quasi.gen q) steps v T k st = (.throw e, st') := by
  subst hd
  have hw : Quasi.Wf q st := ⟨h0, hm, hp, hq⟩
  have count : ∀ {d : Dist F}, d ≠ .stdNormal → Eff.Thr (Quasi.Wf q) (Sim.drawCount (Quasi.gen q) d) := fun hd =>
    Eff.Thr.bind (Quasi.draw_thr q hd) _
  have dr := Quasi.draw_noUb q
  have nn : Eff.NoUb (Quasi.Wf q) (Sim.newDist (Quasi.gen q) (.ok .stdNormal)) :=
    Quasi.newDist_noUb q (by simp)
  have np := fun x : F => Quasi.newDist_noUb q (mk_ne_ub x x).1
  have ng := fun x y : F => Quasi.newDist_noUb q (mk_ne_ub x y).2.1
  have nm := fun x y : F => Quasi.newDist_noUb q (mk_ne_ub x y).2.2.1
  have ne := fun x : F => Quasi.newDist_noUb q (mk_ne_ub x x).2.2.2.1
  have nu := fun x y : F => Quasi.newDist_noUb q (mk_ne_ub x y).2.2.2.2
  have main : Eff.Thr (Quasi.Wf q) (Sim.prices (Quasi.gen q) steps v T k) := by
    cases hk with
    | bates =>
      refine nn.bind_thr fun _ => (np _).bind_thr' fun _ d _ hd => (nm _ _).bind_thr fun _ =>
        Eff.Thr.unfoldInt (fun a => ?_) hs _
      have hd' := mkPoisson_ne (Sim.newDist_ok_iff.mp hd).1
      exact (dr _).bind_thr fun _ => (dr _).bind_thr fun _ => (count hd').bind _
    | kou =>
      refine nn.bind_thr fun _ => (np _).bind_thr' fun _ d _ hd => (nu _ _).bind_thr fun _ =>
        (ne _).bind_thr fun _ => (ne _).bind_thr fun _ => Eff.Thr.unfoldInt (fun a => ?_) hs _
      have hd' := mkPoisson_ne (Sim.newDist_ok_iff.mp hd).1
      exact (dr _).bind_thr fun _ => (count hd').bind _
    | merton =>
      refine nn.bind_thr fun _ => (np _).bind_thr' fun _ d _ hd => (nm _ _).bind_thr fun _ =>
        Eff.Thr.unfoldInt (fun a => ?_) hs _
      have hd' := mkPoisson_ne (Sim.newDist_ok_iff.mp hd).1
      exact (dr _).bind_thr fun _ => (count hd').bind _
    | varianceGamma =>
      refine nn.bind_thr fun _ => (ng _ _).bind_thr' fun _ d _ hd => Eff.Thr.unfoldInt (fun a => ?_) hs _
      have hd' := mkGamma_ne (Sim.newDist_ok_iff.mp hd).1
      exact Eff.Thr.bind (Quasi.draw_thr q hd') _
  exact main st hw

end

/-- A Merton simulation of 12 steps on a sequence of dimension 12. -/
example : ∃ st e st', Quasi.construct (⟨fun _ _ => .ok (), fun s => (.ok (List.replicate 12 (1 / 3)), s), 1⟩ :
      Quasi.Sequence Unit ℝ) 12 5 = .ok st ∧
    Sim.prices (Quasi.gen (⟨fun _ _ => .ok (), fun s => (.ok (List.replicate 12 (1 / 3)), s), 1⟩ : Quasi.Sequence Unit ℝ))
      12 ⟨100, 1 / 5, none, 1 / 20⟩ 1 (.merton 1 0 (1 / 10)) st = (.throw e, st') := by
  obtain ⟨e, st', h⟩ := C42_throws
    (⟨fun _ _ => .ok (), fun s => (.ok (List.replicate 12 (1 / 3)), s), 1⟩ : Quasi.Sequence Unit ℝ) (dim := 12)
    (by norm_num) (by norm_num [INT_MAX]) (fun s => .inr ⟨_, _, rfl, by simp⟩) 12 (by norm_num)
    ⟨100, 1 / 5, none, 1 / 20⟩ 1 _ (.merton 1 0 (1 / 10)) ⟨12, 5, 0, List.replicate 12 (1 / 3), ()⟩ rfl (by simp)
  exact ⟨_, e, st', rfl, h⟩

end Verif
