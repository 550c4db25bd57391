import Verif.Props.Random
import Verif.Props.Quantile
import Verif.Props.Estimator
import Verif.Props.PathDependent
import Verif.Props.American
import Verif.Lemmas.Equidistribution

/-!
# Property C77: quasi Monte Carlo prices
-/

namespace Verif
open MeasureTheory Filter Topology Spec

/-! ## The paths -/

section
variable {Q F : Type} [Fl F] [Add F] [Sub F] [Mul F] [Div F] [Neg F]

/-- The paths simulated from a quasi random generator, as long as every point can be used. -/
theorem Quasi.draws_serves [FlInt F] {q : Quasi.Sequence Q F} (v : View F) (T : F) {dim : ℕ} (hm : dim ≤ INT_MAX) :
    ∀ {pts paths : List (List F)} {rest : List F} {st : Quasi.State Q F}, Serves q st (pts.flatten ++ rest) → (∀ p ∈ pts, p.length = dim) →
    List.Forall₂ (fun p l => gbmOn q.scale v (Sim.dt T dim) p v.price = .ok l) pts paths →
    ∃ st', Draws (Sim.prices (gen q) dim v T .gbm) st paths st' ∧ Serves q st' rest
  | [], _, _, st, h, _, .nil => ⟨st, .nil _, by simpa using h⟩
  | p :: pts, _ :: _, rest, st, h, hl, .cons h1 h2 => by
    obtain ⟨st₁, e, h'⟩ := prices_serves v T hm (hl p (by simp)) (rest := pts.flatten ++ rest) (by simpa using h)
    rw [h1] at e
    obtain ⟨st', hd, hs⟩ := draws_serves v T hm (h' _ h1) (fun x hx => hl x (by simp [hx])) h2
    exact ⟨st', .cons e hd, hs⟩

end

variable {Q : Type}

theorem gbmOn_real (v : View ℝ) {dt scale : ℝ} {Z : ℝ → ℝ} (hZ : ∀ u, 0 < u → u < 1 → moroInvCdf u = .ok (Z u)) :
    ∀ (cs : List ℝ) (S : ℝ), (∀ c ∈ cs, 0 < c / scale ∧ c / scale < 1) →
    Quasi.gbmOn scale v dt cs S = .ok ((List.range cs.length).map fun k : ℕ =>
      S * Real.exp ((v.r - v.coupon.getD 0 - v.sigma ^ 2 / 2) * ((k + 1) * dt) +
        v.sigma * Real.sqrt dt * ((cs.map fun c => Z (c / scale)).take (k + 1)).sum))
  | [], S, _ => rfl
  | c :: cs, S, h => by
    simp only [Quasi.gbmOn]
    rw [hZ _ (h c (by simp)).1 (h c (by simp)).2, Res.bind_ok, gbmOn_real v hZ cs _ fun x hx => h x (by simp [hx]), Res.bind_ok,
      List.length_cons, List.range_succ_eq_map, List.map_cons, List.map_map]
    have e : Sim.gbmUpdate v dt S (Z (c / scale)) =
        S * Real.exp ((v.r - v.coupon.getD 0 - v.sigma ^ 2 / 2) * dt + v.sigma * Real.sqrt dt * Z (c / scale)) := by
      simp only [Sim.gbmUpdate, View.c, Fl.lit_real, Fl.exp_real, Fl.sqrt_real]
      push_cast
      congr 2
      cases v.coupon <;> simp <;> left <;> ring
    rw [e]
    congr 1
    refine List.cons_eq_cons.mpr ⟨?_, List.map_congr_left fun k _ => ?_⟩
    · simp
    · simp only [Function.comp, List.map_cons, List.take_succ_cons, List.sum_cons]
      rw [mul_assoc, ← Real.exp_add]
      congr 2
      push_cast
      ring

theorem gbmOn_quasiPath (v : View ℝ) {T scale : ℝ} {Z : ℝ → ℝ} (hZ : ∀ u, 0 < u → u < 1 → moroInvCdf u = .ok (Z u)) {d : ℕ} (p : Fin d → ℝ)
    (h : (fun j => p j / scale) ∈ cube d) :
    Quasi.gbmOn scale v (Sim.dt T d) (List.ofFn p) v.price =
      .ok (List.ofFn (quasiPath v.price v.r (v.coupon.getD 0) v.sigma T Z fun j => p j / scale)) := by
  rw [gbmOn_real v hZ _ _ (by
    intro c hc
    obtain ⟨j, rfl⟩ := List.mem_ofFn.mp hc
    exact h j)]
  congr 1
  refine List.ext_getElem (by simp) fun k h1 h2 => ?_
  simp only [List.getElem_map, List.getElem_range, List.getElem_ofFn, quasiPath, List.map_ofFn, dt_real]
  congr 3
  rw [List.sum_take_ofFn]
  congr 1
  refine Finset.sum_congr ?_ fun j _ => rfl
  ext j
  simp [Fin.le_def, Nat.lt_succ_iff]

theorem gbmOn_throws (v : View ℝ) {dt scale : ℝ} : ∀ (cs : List ℝ) (S : ℝ), (∃ c ∈ cs, ¬ (0 < c / scale ∧ c / scale < 1)) →
    (Quasi.gbmOn scale v dt cs S).Throws .invalidArgument
  | [], S, h => by simp at h
  | c :: cs, S, h => by
    simp only [Quasi.gbmOn]
    by_cases hc : 0 < c / scale ∧ c / scale < 1
    · obtain ⟨m, e⟩ := gbmOn_throws (dt := dt) v cs (Sim.gbmUpdate v dt S (quantile (c / scale))) (by
        obtain ⟨x, hx, hn⟩ := h
        rcases List.mem_cons.mp hx with rfl | hx
        · exact absurd hc hn
        · exact ⟨x, hx, hn⟩)
      rw [moroInvCdf_real hc.1 hc.2, Res.bind_ok, e]
      exact ⟨m, rfl⟩
    · obtain ⟨m, e⟩ := (C43_domain (c / scale)).1.mpr (by
        simp only [Fl.le_real, Fl.lit_real, decide_eq_true_eq]
        push_cast
        by_contra hh
        push Not at hh
        exact hc hh)
      rw [e]
      exact ⟨m, rfl⟩

section
variable {q : Quasi.Sequence Q ℝ} {dim seed : ℕ} {s0 : Q} {P : ℕ → Fin dim → ℝ} {Z : ℝ → ℝ}

/-- The states of a new generator after `N` usable points. -/
theorem quasi_serves (h0 : 0 < dim) (hm : dim ≤ INT_MAX) (hq : q.seeded dim seed = .ok s0) (hP : Yields q.generate s0 P)
    (hZ : ∀ u, 0 < u → u < 1 → moroInvCdf u = .ok (Z u)) :
    ∃ st, Quasi.construct q dim seed = .ok st ∧ ∀ (v : View ℝ) (T : ℝ) (N : ℕ), (∀ n < N, (fun j => P n j / q.scale) ∈ cube dim) →
      ∃ st', Draws (Sim.prices (Quasi.gen q) dim v T .gbm) st ((List.range N).map fun n =>
        List.ofFn (quasiPath v.price v.r (v.coupon.getD 0) v.sigma T Z fun j => P n j / q.scale)) st' ∧
        Quasi.Serves q st' (List.ofFn (P N)) := by
  have key : ∀ N, ∃ st, Quasi.construct q dim seed = .ok st ∧ Quasi.Serves q st (((List.range N).map fun n => List.ofFn (P n)).flatten ++ List.ofFn (P N)) := by
    intro N
    obtain ⟨s', hs⟩ := hP (N + 1)
    obtain ⟨st, h1, -, h2⟩ := Quasi.construct_serves h0 hm hq hs (by simp) (by simp)
    refine ⟨st, h1, ?_⟩
    rw [List.range_succ] at h2
    simpa using h2
  obtain ⟨st, h1, -⟩ := key 0
  refine ⟨st, h1, fun v T N hN => ?_⟩
  obtain ⟨st₁, e1, e2⟩ := key N
  obtain rfl : st = st₁ := by
    rw [h1] at e1
    simpa using e1
  refine Quasi.draws_serves v T hm e2 (by simp) ?_
  rw [List.forall₂_map_left_iff, List.forall₂_map_right_iff, List.forall₂_same]
  intro n hn
  exact gbmOn_quasiPath v hZ (P n) (hN n (List.mem_range.mp hn))

theorem quasi_maturity {G : Type} {g : Gen G ℝ} {steps : ℕ} (h0 : 0 < steps) {v : View ℝ} {T : ℝ} {k : ModelKind ℝ} :
    ∀ {paths : List (Fin steps → ℝ)} {s s' : G}, Draws (Sim.prices g steps v T k) s (paths.map List.ofFn) s' →
    Draws (Sim.maturity g steps v T k) s (paths.map fun p => p ⟨steps - 1, by omega⟩) s'
  | [], _, _, h => by
    cases h
    exact .nil _
  | p :: paths, s, s', h => by
    rw [List.map_cons] at h ⊢
    cases h with
    | @cons _ s₁ _ _ _ hx ht =>
      obtain ⟨hne, e⟩ := (C32_maturity g steps h0 v T k s).1 _ _ hx
      refine .cons ?_ (quasi_maturity h0 ht)
      rw [e, List.getLast_eq_getElem]
      simp

theorem discountedMean_range (r T : ℝ) (f : ℕ → ℝ) (N : ℕ) :
    discountedMean r T ((List.range N).map f) = Real.exp (-(r * T)) * ((∑ n ∈ Finset.range N, f n) / N) := by
  rw [discountedMean, sum_map_range, List.length_map, List.length_range]

/-- **C77.** With a quasi random generator the Monte Carlo price of a single-path option on geometric Brownian motion is the
discounted mean of its payoffs over the first `N` points of the sequence: path number `n` is made from point number `n`. -/
theorem C77_singlePath (h0 : 0 < dim) (hm : dim ≤ INT_MAX) (hq : q.seeded dim seed = .ok s0) (hP : Yields q.generate s0 P)
    (hZ : ∀ u, 0 < u → u < 1 → moroInvCdf u = .ok (Z u)) :
    ∃ st, Quasi.construct q dim seed = .ok st ∧ ∀ (v : View ℝ) (T : ℝ) (f : ℝ → ℝ) (pay : ℝ → Res ℝ), (∀ x, pay x = .ok (f x)) →
      ∀ N ≤ INT_MAX, (∀ n < N, (fun j => P n j / q.scale) ∈ cube dim) →
      (MC.singlePath (modelSource (Quasi.gen q) dim v .gbm) (Eff.lift (.ok v.r)) pay T N st).1 =
        .ok (Real.exp (-(v.r * T)) * ((∑ n ∈ Finset.range N,
          f (quasiPath v.price v.r (v.coupon.getD 0) v.sigma T Z (fun j => P n j / q.scale) ⟨dim - 1, by omega⟩)) / N)) := by
  obtain ⟨st, h1, h2⟩ := quasi_serves h0 hm hq hP hZ
  refine ⟨st, h1, fun v T f pay hpay N hN hc => ?_⟩
  obtain ⟨st', hd, -⟩ := h2 v T N hc
  have hd' := quasi_maturity (paths := (List.range N).map fun n => quasiPath v.price v.r (v.coupon.getD 0) v.sigma T Z fun j => P n j / q.scale) h0 (by
    rw [List.map_map]; exact hd)
  have := C23_singlePath_mean (modelSource (Quasi.gen q) dim v .gbm) (Eff.lift (.ok v.r)) pay (r := v.r) (T := T) rfl hd' (by simpa using hN)
    (vals := (List.range N).map fun n => f (quasiPath v.price v.r (v.coupon.getD 0) v.sigma T Z (fun j => P n j / q.scale) ⟨dim - 1, by omega⟩)) (by
      rw [List.map_map, Pays, List.forall₂_map_left_iff, List.forall₂_map_right_iff, List.forall₂_same]
      exact fun n _ => hpay _)
  rw [discountedMean_range] at this
  simp only [List.length_map, List.length_range] at this
  rw [this]

theorem quasiPath_pos {d : ℕ} {S : ℝ} (hS : 0 < S) (r c σ T : ℝ) (Z : ℝ → ℝ) (u : Fin d → ℝ) (k : Fin d) : 0 < quasiPath S r c σ T Z u k :=
  mul_pos hS (Real.exp_pos _)

/-- **C77.** The same for the two Asian pricers; here the number of paths is not limited. -/
theorem C77_asian (h0 : 0 < dim) (hm : dim ≤ INT_MAX) (hq : q.seeded dim seed = .ok s0) (hP : Yields q.generate s0 P)
    (hZ : ∀ u, 0 < u → u < 1 → moroInvCdf u = .ok (Z u)) :
    ∃ st, Quasi.construct q dim seed = .ok st ∧ ∀ (v : View ℝ) (T : ℝ) (f : ℝ → ℝ) (pay : ℝ → Res ℝ), 0 < v.price → (∀ x, pay x = .ok (f x)) →
      ∀ N, (∀ n < N, (fun j => P n j / q.scale) ∈ cube dim) →
      (MC.asian .arithmetic (modelSource (Quasi.gen q) dim v .gbm) (Eff.lift (.ok v.r)) pay T N st).1 =
        .ok (Real.exp (-(v.r * T)) * ((∑ n ∈ Finset.range N,
          f ((∑ k, quasiPath v.price v.r (v.coupon.getD 0) v.sigma T Z (fun j => P n j / q.scale) k) / dim)) / N)) ∧
      (MC.asian .geometric (modelSource (Quasi.gen q) dim v .gbm) (Eff.lift (.ok v.r)) pay T N st).1 =
        .ok (Real.exp (-(v.r * T)) * ((∑ n ∈ Finset.range N,
          f ((∏ k, quasiPath v.price v.r (v.coupon.getD 0) v.sigma T Z (fun j => P n j / q.scale) k) ^ ((1 : ℝ) / dim))) / N)) := by
  obtain ⟨st, h1, h2⟩ := quasi_serves h0 hm hq hP hZ
  refine ⟨st, h1, fun v T f pay hS hpay N hc => ?_⟩
  obtain ⟨st', hd, -⟩ := h2 v T N hc
  have a := C22_arithmetic (modelSource (Quasi.gen q) dim v .gbm) (Eff.lift (.ok v.r)) pay (r := v.r) (T := T) rfl hd hm (by simp [modelSource])
    (vals := (List.range N).map fun n => f ((∑ k, quasiPath v.price v.r (v.coupon.getD 0) v.sigma T Z (fun j => P n j / q.scale) k) / dim)) (by
      rw [List.forall₂_map_left_iff, List.forall₂_map_right_iff, List.forall₂_same]
      intro n _
      rw [hpay, arithMean, List.sum_ofFn, List.length_ofFn])
  have b := C22_geometric (modelSource (Quasi.gen q) dim v .gbm) (Eff.lift (.ok v.r)) pay (r := v.r) (T := T) rfl hd hm (by simp [modelSource]) (by
      intro S hS' x hx
      obtain ⟨n, -, rfl⟩ := List.mem_map.mp hS'
      obtain ⟨k, rfl⟩ := List.mem_ofFn.mp hx
      exact quasiPath_pos hS _ _ _ _ _ _ _)
    (vals := (List.range N).map fun n => f ((∏ k, quasiPath v.price v.r (v.coupon.getD 0) v.sigma T Z (fun j => P n j / q.scale) k) ^ ((1 : ℝ) / dim))) (by
      rw [List.forall₂_map_left_iff, List.forall₂_map_right_iff, List.forall₂_same]
      intro n _
      rw [hpay, geomMean, List.prod_ofFn, List.length_ofFn])
  rw [discountedMean_range] at a b
  simp only [List.length_map, List.length_range] at a b
  rw [a, b]
  exact ⟨rfl, rfl⟩

open Classical in
/-- **C77.** The same for the two barrier pricers. -/
theorem C77_barrier (h0 : 0 < dim) (hm : dim ≤ INT_MAX) (hq : q.seeded dim seed = .ok s0) (hP : Yields q.generate s0 P)
    (hZ : ∀ u, 0 < u → u < 1 → moroInvCdf u = .ok (Z u)) :
    ∃ st, Quasi.construct q dim seed = .ok st ∧ ∀ (v : View ℝ) (T : ℝ) (f : ℝ → ℝ) (pay : ℝ → Res ℝ) (d : BarrierDirection) (B : ℝ), (∀ x, pay x = .ok (f x)) →
      ∀ N ≤ INT_MAX, (∀ n < N, (fun j => P n j / q.scale) ∈ cube dim) →
      (MC.barrier .knockIn (modelSource (Quasi.gen q) dim v .gbm) (Eff.lift (.ok v.r)) (OptionModel.knockInIsActive B d) pay T N st).1 =
        .ok (Real.exp (-(v.r * T)) * ((∑ n ∈ Finset.range N,
          (let S := quasiPath v.price v.r (v.coupon.getD 0) v.sigma T Z (fun j => P n j / q.scale)
           if ∃ k, Beyond d B (S k) then f (S ⟨dim - 1, by omega⟩) else 0)) / N)) ∧
      (MC.barrier .knockOut (modelSource (Quasi.gen q) dim v .gbm) (Eff.lift (.ok v.r)) (OptionModel.knockOutIsActive B d) pay T N st).1 =
        .ok (Real.exp (-(v.r * T)) * ((∑ n ∈ Finset.range N,
          (let S := quasiPath v.price v.r (v.coupon.getD 0) v.sigma T Z (fun j => P n j / q.scale)
           if ∃ k, Beyond d B (S k) then 0 else f (S ⟨dim - 1, by omega⟩))) / N)) := by
  obtain ⟨st, h1, h2⟩ := quasi_serves h0 hm hq hP hZ
  refine ⟨st, h1, fun v T f pay d B hpay N hN hc => ?_⟩
  obtain ⟨st', hd, -⟩ := h2 v T N hc
  have ht : ∀ p : Fin dim → ℝ, Touched B d (List.ofFn p) ↔ ∃ k, Beyond d B (p k) := by
    intro p
    unfold Touched Beyond
    cases d <;> simp [Fl.ge, Fl.le_real]
  have hl : ∀ p : Fin dim → ℝ, ∃ h : List.ofFn p ≠ [], pay ((List.ofFn p).getLast h) = .ok (f (p ⟨dim - 1, by omega⟩)) := by
    intro p
    refine ⟨by rw [← List.length_pos_iff]; simpa using h0, ?_⟩
    rw [hpay, List.getLast_eq_getElem]
    simp
  have a := C20_knockIn (modelSource (Quasi.gen q) dim v .gbm) (Eff.lift (.ok v.r)) pay B d (r := v.r) (T := T) rfl hd (by simpa using hN) hm (by simp [modelSource])
    (vals := (List.range N).map fun n => (let S := quasiPath v.price v.r (v.coupon.getD 0) v.sigma T Z (fun j => P n j / q.scale)
           if ∃ k, Beyond d B (S k) then f (S ⟨dim - 1, by omega⟩) else 0)) (by
      rw [List.forall₂_map_left_iff, List.forall₂_map_right_iff, List.forall₂_same]
      intro n _
      obtain ⟨h, e⟩ := hl (quasiPath v.price v.r (v.coupon.getD 0) v.sigma T Z (fun j => P n j / q.scale))
      refine ⟨h, fun hh => ?_, fun hh => ?_⟩
      · rw [ht] at hh
        simp only [if_pos hh]
        exact e
      · rw [ht] at hh
        simp only [if_neg hh]
        simp)
  have b := C20_knockOut (modelSource (Quasi.gen q) dim v .gbm) (Eff.lift (.ok v.r)) pay B d (r := v.r) (T := T) rfl hd (by simpa using hN) hm (by simp [modelSource])
    (vals := (List.range N).map fun n => (let S := quasiPath v.price v.r (v.coupon.getD 0) v.sigma T Z (fun j => P n j / q.scale)
           if ∃ k, Beyond d B (S k) then 0 else f (S ⟨dim - 1, by omega⟩))) (by
      rw [List.forall₂_map_left_iff, List.forall₂_map_right_iff, List.forall₂_same]
      intro n _
      obtain ⟨h, e⟩ := hl (quasiPath v.price v.r (v.coupon.getD 0) v.sigma T Z (fun j => P n j / q.scale))
      refine ⟨h, fun hh => ?_, fun hh => ?_⟩
      · rw [ht] at hh
        simp only [if_neg hh]
        exact e
      · rw [ht] at hh
        simp only [if_pos hh]
        simp)
  rw [price_eq_discountedMean _ _ _ (by simp), discountedMean_range] at a b
  simp only [List.length_map, List.length_range] at a b
  rw [a, b]
  exact ⟨rfl, rfl⟩

/-- **C77.** A point with a coordinate that, scaled, is not strictly between 0 and 1 ends the pricing with
`invalid_argument`, for every pricer and every larger number of paths. -/
theorem C77_throws (h0 : 0 < dim) (hm : dim ≤ INT_MAX) (hq : q.seeded dim seed = .ok s0) (hP : Yields q.generate s0 P)
    {n : ℕ} (hn : n ≤ INT_MAX) (hc : ∀ i < n, (fun j => P i j / q.scale) ∈ cube dim) (hb : (fun j => P n j / q.scale) ∉ cube dim) :
    ∃ st, Quasi.construct q dim seed = .ok st ∧ ∀ (v : View ℝ) (T : ℝ) (f : ℝ → ℝ) (pay : ℝ → Res ℝ), (∀ x, pay x = .ok (f x)) → ∀ N, n < N →
      (MC.singlePath (modelSource (Quasi.gen q) dim v .gbm) (Eff.lift (.ok v.r)) pay T N st).1.Throws .invalidArgument ∧
      (∀ k, (MC.asian k (modelSource (Quasi.gen q) dim v .gbm) (Eff.lift (.ok v.r)) pay T N st).1.Throws .invalidArgument) ∧
      (∀ k isActive, (MC.barrier k (modelSource (Quasi.gen q) dim v .gbm) (Eff.lift (.ok v.r)) isActive pay T N st).1.Throws .invalidArgument) := by
  obtain ⟨st, h1, h2⟩ := quasi_serves h0 hm hq hP (Z := quantile) fun u => moroInvCdf_real
  refine ⟨st, h1, fun v T f pay hpay N hN => ?_⟩
  obtain ⟨st', hd, hs⟩ := h2 v T n hc
  obtain ⟨st₂, e, -⟩ := Quasi.prices_serves v T hm (p := List.ofFn (P n)) (rest := []) (by simp) (by simpa using hs)
  obtain ⟨m, em⟩ := gbmOn_throws v (dt := Sim.dt T dim) (scale := q.scale) (List.ofFn (P n)) v.price (by
    simp only [cube, Set.mem_setOf_eq, not_forall] at hb
    obtain ⟨j, hj⟩ := hb
    exact ⟨P n j, by simp, hj⟩)
  rw [em] at e
  have em' := (C32_maturity (Quasi.gen q) dim h0 v T .gbm st').2.1 _ _ e
  have hd' := quasi_maturity (paths := (List.range n).map fun n => quasiPath v.price v.r (v.coupon.getD 0) v.sigma T quantile fun j => P n j / q.scale) h0 (by
    rw [List.map_map]; exact hd)
  have pays : ∀ {α : Type} (pp : α → Res ℝ) (l : List α), (∀ x ∈ l, ∃ y, pp x = .ok y) → ∃ vals, Pays pp l vals := by
    intro α pp l hl
    induction l with
    | nil => exact ⟨[], .nil⟩
    | cons a l ih =>
      obtain ⟨vals, hv⟩ := ih fun x hx => hl x (by simp [hx])
      obtain ⟨y, hy⟩ := hl a (by simp)
      exact ⟨y :: vals, .cons hy hv⟩
  have hlen : ∀ x ∈ (List.range n).map fun n => List.ofFn (quasiPath v.price v.r (v.coupon.getD 0) v.sigma T quantile fun j => P n j / q.scale),
      x.length = dim := by simp
  refine ⟨⟨m, ?_⟩, fun k => ⟨m, ?_⟩, fun k isActive => ⟨m, ?_⟩⟩
  · obtain ⟨vals, hv⟩ := pays pay _ fun x _ => ⟨_, hpay x⟩
    rw [MC.singlePath_eq]
    exact congrArg Prod.fst (MC.intPricer_throw (getR := Eff.lift (.ok v.r)) (r := v.r) (by simpa using hN) (by simpa using hn) rfl hd' hv fun acc => MC.payBody_throw_sim em')
  · obtain ⟨vals, hv⟩ := pays (MC.asianPath k pay dim) _ fun x hx => (by
      rw [← hlen x hx]
      cases k
      · exact ⟨_, (asianPath_arith pay x (by rw [hlen x hx]; exact hm)).trans (hpay _)⟩
      · exact ⟨_, (asianPath_geom pay x (by rw [hlen x hx]; exact hm)).trans (hpay _)⟩)
    rw [MC.asian_eq]
    exact congrArg Prod.fst (MC.longPricer_throw (getR := Eff.lift (.ok v.r)) (r := v.r) (by simpa using hN) rfl hd hv fun acc => MC.payBody_throw_sim e)
  · obtain ⟨vals, hv⟩ := pays (MC.barrierPath k isActive pay dim) _ fun x hx => (by
      have hne : x ≠ [] := by rw [← List.length_pos_iff, hlen x hx]; exact h0
      rw [← hlen x hx]
      have hM : x.length ≤ INT_MAX := by rw [hlen x hx]; exact hm
      cases k
      · unfold MC.barrierPath
        rw [MC.scan_knockIn _ _ hM, Res.bind_ok, MC.vget_last hne, Res.bind_ok]
        unfold MC.KnockKind.payoff
        dsimp only
        split
        · exact ⟨_, hpay _⟩
        · exact ⟨_, rfl⟩
      · unfold MC.barrierPath
        rw [MC.scan_knockOut _ x _ 0 (by omega) hM, Res.bind_ok, MC.vget_last hne, Res.bind_ok]
        unfold MC.KnockKind.payoff
        dsimp only
        split
        · exact ⟨_, rfl⟩
        · exact ⟨_, hpay _⟩)
    rw [MC.barrier_eq]
    exact congrArg Prod.fst (MC.intPricer_throw (getR := Eff.lift (.ok v.r)) (r := v.r) (by simpa using hN) (by simpa using hn) rfl hd hv fun acc => MC.payBody_throw_sim e)

/-! ## Convergence -/

theorem measurable_quantile : Measurable quantile := by
  have h1 : Measurable fun q : ℝ => moroCentral (q - 1 / 2) := by
    simp only [moroCentral, Fl.lit_real]
    fun_prop
  have h2 : Measurable fun q : ℝ => -moroTailPoly (Real.log (-Real.log q)) := by
    simp only [moroTailPoly, Fl.lit_real]
    fun_prop
  have h3 : Measurable lowerQuantile := Measurable.ite measurableSet_Ioi h1 h2
  exact Measurable.ite measurableSet_Ioi (h3.comp (by fun_prop)).neg h3

theorem measurable_quasiPath {d : ℕ} (S r c σ T : ℝ) (k : Fin d) : Measurable fun u : Fin d → ℝ => quasiPath S r c σ T quantile u k := by
  have := measurable_quantile
  unfold quasiPath
  fun_prop

theorem continuousAt_quasiPath {d : ℕ} (S r c σ T : ℝ) {u : Fin d → ℝ} (h : ∀ j, ContinuousAt quantile (u j)) (k : Fin d) :
    ContinuousAt (fun u : Fin d → ℝ => quasiPath S r c σ T quantile u k) u := by
  have hj : ∀ j, ContinuousAt (fun u : Fin d → ℝ => quantile (u j)) u := fun j =>
    ContinuousAt.comp (f := fun u : Fin d → ℝ => u j) (h j) (continuous_apply j).continuousAt
  have hs : ContinuousAt (fun u : Fin d → ℝ => ∑ j ∈ Finset.Iic k, quantile (u j)) u := tendsto_finset_sum _ fun j _ => hj j
  unfold quasiPath
  fun_prop

/-- The last price of a path determines the last coordinate of the point. -/
theorem quasiPath_last {n : ℕ} {S r c σ T : ℝ} (hS : S ≠ 0) (hσ : σ ≠ 0) (hT : 0 < T) {u w : Fin (n + 1) → ℝ} (hu : u ∈ cube (n + 1))
    (hw : w ∈ cube (n + 1)) (ho : ∀ j, j ≠ Fin.last n → u j = w j)
    (he : quasiPath S r c σ T quantile u (Fin.last n) = quasiPath S r c σ T quantile w (Fin.last n)) : u (Fin.last n) = w (Fin.last n) := by
  unfold quasiPath at he
  have h1 := Real.exp_injective (mul_left_cancel₀ hS he)
  have hd : (0 : ℝ) < T / ((n + 1 : ℕ) : ℝ) := by positivity
  have h2 := mul_left_cancel₀ (mul_ne_zero hσ (Real.sqrt_pos.mpr hd).ne') (add_left_cancel h1)
  have e : Finset.Iic (Fin.last n) = Finset.univ := by ext j; simp [Fin.le_last]
  rw [e, ← Finset.add_sum_erase _ _ (Finset.mem_univ (Fin.last n)), ← Finset.add_sum_erase _ (fun j => quantile (w j)) (Finset.mem_univ (Fin.last n)),
    Finset.sum_congr rfl fun j hj => by rw [ho j (Finset.ne_of_mem_erase hj)]] at h2
  exact quantile_strictMono.injOn (hu _) (hw _) (add_right_cancel h2)

theorem quasiPath_other {n : ℕ} {S r c σ T : ℝ} {u w : Fin (n + 1) → ℝ} (ho : ∀ j, j ≠ Fin.last n → u j = w j) {k : Fin (n + 1)} (hk : k ≠ Fin.last n) :
    quasiPath S r c σ T quantile u k = quasiPath S r c σ T quantile w k := by
  unfold quasiPath
  congr 4
  refine Finset.sum_congr rfl fun j hj => ?_
  rw [ho j]
  rintro rfl
  exact hk (le_antisymm (Fin.le_last k) (Finset.mem_Iic.mp hj))

/-- Averages over uniformly distributed points of a payoff of some mean of the path. -/
theorem tendsto_quasi {d : ℕ} {S r c σ T : ℝ} {x : ℕ → Fin d → ℝ} (hx : Equidistributed x) (hc : ∀ n, x n ∈ cube d)
    {m : (Fin d → ℝ) → ℝ} (hm : Measurable m) (hmc : ∀ p : Fin d → ℝ, (∀ k, 0 < p k) → 0 < m p ∧ ContinuousAt m p) (hS : 0 < S)
    {f : ℝ → ℝ} (hf : Measurable f) {C : ℝ} (hC : ∀ y > 0, |f y| ≤ C) {D : Set ℝ} (hD : D.Countable) (hfc : ∀ y > 0, y ∉ D → ContinuousAt f y)
    (hlev : ∀ y ∈ D, ∀ᵐ u ∂(volume.restrict (cube d)), m (quasiPath S r c σ T quantile u) ≠ y) :
    Tendsto (fun N : ℕ => (∑ n ∈ Finset.range N, f (m (quasiPath S r c σ T quantile (x n)))) / (N : ℝ)) atTop
      (𝓝 (∫ u in cube d, f (m (quasiPath S r c σ T quantile u)))) := by
  have hpath : Measurable fun u : Fin d → ℝ => quasiPath S r c σ T quantile u := measurable_pi_lambda _ fun k => measurable_quasiPath S r c σ T k
  refine hx.tendsto_average hc (f := fun u => f (m (quasiPath S r c σ T quantile u))) (hf.comp (hm.comp hpath)) ?_ fun u => hC _ (hmc _ fun k => quasiPath_pos hS _ _ _ _ _ _ _).1
  have h1 := ae_continuousAt_of_strictMonoOn (d := d) quantile_strictMono
  have h2 : ∀ᵐ u ∂((volume : Measure (Fin d → ℝ)).restrict (cube d)), ∀ y ∈ D, m (quasiPath S r c σ T quantile u) ≠ y := by
    rw [ae_ball_iff hD]
    exact hlev
  filter_upwards [h1, h2] with u hu1 hu2
  have hp : ContinuousAt (fun u : Fin d → ℝ => quasiPath S r c σ T quantile u) u := continuousAt_pi.mpr fun k => continuousAt_quasiPath S r c σ T hu1 k
  have hmu : ContinuousAt (fun u : Fin d → ℝ => m (quasiPath S r c σ T quantile u)) u :=
    ContinuousAt.comp (hmc _ fun k => quasiPath_pos hS _ _ _ _ _ _ _).2 hp
  exact ContinuousAt.comp (f := fun u : Fin d → ℝ => m (quasiPath S r c σ T quantile u)) (hfc _ (hmc _ fun k => quasiPath_pos hS _ _ _ _ _ _ _).1 fun h => hu2 _ h rfl) hmu

/-- **C77.** If the points of the sequence are uniformly distributed in the open unit cube, the quasi Monte Carlo prices of an
Asian option with a bounded payoff, continuous up to countably many jumps, converge to the discounted integral of the payoff
over the unit cube.  Missing: unbounded payoffs (a call), where uniform distribution alone is not enough, and the pricers whose
number of paths is an `int`. -/
theorem C77_limit_partial (h0 : 0 < dim) (hm : dim ≤ INT_MAX) (hq : q.seeded dim seed = .ok s0) (hP : Yields q.generate s0 P)
    (hZ : ∀ u, 0 < u → u < 1 → moroInvCdf u = .ok (Z u)) (hx : Equidistributed fun n j => P n j / q.scale)
    (hc : ∀ n, (fun j => P n j / q.scale) ∈ cube dim) :
    ∃ st, Quasi.construct q dim seed = .ok st ∧ ∀ (v : View ℝ) (T : ℝ), 0 < v.price → v.sigma ≠ 0 → 0 < T →
      ∀ (f : ℝ → ℝ) (pay : ℝ → Res ℝ), (∀ x, pay x = .ok (f x)) → Measurable f → (∃ C, ∀ x > 0, |f x| ≤ C) →
      ∀ D : Set ℝ, D.Countable → (∀ x > 0, x ∉ D → ContinuousAt f x) →
      (∃ Y : ℕ → ℝ, (∀ N, (MC.asian .arithmetic (modelSource (Quasi.gen q) dim v .gbm) (Eff.lift (.ok v.r)) pay T N st).1 = .ok (Y N)) ∧
        Tendsto Y atTop (𝓝 (Real.exp (-(v.r * T)) * ∫ u in cube dim,
          f ((∑ k, quasiPath v.price v.r (v.coupon.getD 0) v.sigma T Z u k) / dim)))) ∧
      (∃ Y : ℕ → ℝ, (∀ N, (MC.asian .geometric (modelSource (Quasi.gen q) dim v .gbm) (Eff.lift (.ok v.r)) pay T N st).1 = .ok (Y N)) ∧
        Tendsto Y atTop (𝓝 (Real.exp (-(v.r * T)) * ∫ u in cube dim,
          f ((∏ k, quasiPath v.price v.r (v.coupon.getD 0) v.sigma T Z u k) ^ ((1 : ℝ) / dim))))) := by
  obtain ⟨st, h1, h2⟩ := C77_asian h0 hm hq hP (Z := quantile) fun u => moroInvCdf_real
  refine ⟨st, h1, fun v T hS hσ hT f pay hpay hf ⟨C, hC⟩ D hD hfc => ?_⟩
  have hcube : MeasurableSet (cube dim) := by rw [cube_eq]; exact MeasurableSet.univ_pi fun _ => measurableSet_Ioo
  have eZ : ∀ u ∈ cube dim, quasiPath v.price v.r (v.coupon.getD 0) v.sigma T Z u = quasiPath v.price v.r (v.coupon.getD 0) v.sigma T quantile u := by
    intro u hu
    funext k
    unfold quasiPath
    congr 4
    refine Finset.sum_congr rfl fun j _ => ?_
    have := (hZ _ (hu j).1 (hu j).2).symm.trans (moroInvCdf_real (hu j).1 (hu j).2)
    simpa using this
  obtain ⟨n, rfl⟩ : ∃ n, dim = n + 1 := ⟨dim - 1, by omega⟩
  have hd : ((n + 1 : ℕ) : ℝ) ≠ 0 := by positivity
  constructor
  · refine ⟨_, fun N => (h2 v T f pay hS hpay N fun n _ => hc n).1, ?_⟩
    rw [setIntegral_congr_fun (g := fun u => f ((∑ k, quasiPath v.price v.r (v.coupon.getD 0) v.sigma T quantile u k) / ((n + 1 : ℕ) : ℝ))) hcube
      fun u hu => by simp only [eZ u hu]]
    refine (tendsto_quasi hx hc (m := fun p => (∑ k, p k) / ((n + 1 : ℕ) : ℝ)) (by fun_prop)
      (fun p hp => ⟨div_pos (Finset.sum_pos (fun k _ => hp k) ⟨Fin.last n, Finset.mem_univ _⟩) (by positivity), by fun_prop⟩) hS hf hC hD hfc fun y _ => ?_).const_mul _
    refine ae_ne_of_determines (Fin.last n) (h := fun u => (∑ k, quasiPath v.price v.r (v.coupon.getD 0) v.sigma T quantile u k) / ((n + 1 : ℕ) : ℝ)) ?_ ?_ y
    · exact (Finset.measurable_sum _ fun k _ => measurable_quasiPath _ _ _ _ _ k).div_const _
    · intro u hu w hw ho he
      have he' := (div_left_inj' hd).mp he
      rw [← Finset.add_sum_erase _ _ (Finset.mem_univ (Fin.last n)),
        ← Finset.add_sum_erase _ (fun k => quasiPath v.price v.r (v.coupon.getD 0) v.sigma T quantile w k) (Finset.mem_univ (Fin.last n)),
        Finset.sum_congr rfl fun j hj => quasiPath_other ho (Finset.ne_of_mem_erase hj)] at he'
      exact quasiPath_last hS.ne' hσ hT hu hw ho (add_right_cancel he')
  · refine ⟨_, fun N => (h2 v T f pay hS hpay N fun n _ => hc n).2, ?_⟩
    rw [setIntegral_congr_fun (g := fun u => f ((∏ k, quasiPath v.price v.r (v.coupon.getD 0) v.sigma T quantile u k) ^ ((1 : ℝ) / ((n + 1 : ℕ) : ℝ)))) hcube
      fun u hu => by simp only [eZ u hu]]
    refine (tendsto_quasi hx hc (m := fun p => (∏ k, p k) ^ ((1 : ℝ) / ((n + 1 : ℕ) : ℝ))) ?_
      (fun p hp => ⟨Real.rpow_pos_of_pos (Finset.prod_pos fun k _ => hp k) _, ?_⟩) hS hf hC hD hfc fun y _ => ?_).const_mul _
    · exact (Finset.measurable_prod _ fun k _ => measurable_pi_apply k).pow_const _
    · refine ContinuousAt.rpow_const ?_ (.inl (Finset.prod_pos fun k _ => hp k).ne')
      fun_prop
    refine ae_ne_of_determines (Fin.last n) (h := fun u => (∏ k, quasiPath v.price v.r (v.coupon.getD 0) v.sigma T quantile u k) ^ ((1 : ℝ) / ((n + 1 : ℕ) : ℝ))) ?_ ?_ y
    · exact (Finset.measurable_prod _ fun k _ => measurable_quasiPath _ _ _ _ _ k).pow_const _
    · intro u hu w hw ho he
      have hpos : ∀ u : Fin (n + 1) → ℝ, 0 < ∏ k, quasiPath v.price v.r (v.coupon.getD 0) v.sigma T quantile u k := fun u =>
        Finset.prod_pos fun k _ => quasiPath_pos hS _ _ _ _ _ _ _
      have he' := (Real.rpow_left_inj (hpos u).le (hpos w).le (one_div_ne_zero hd)).mp he
      rw [← Finset.mul_prod_erase _ _ (Finset.mem_univ (Fin.last n)),
        ← Finset.mul_prod_erase _ (fun k => quasiPath v.price v.r (v.coupon.getD 0) v.sigma T quantile w k) (Finset.mem_univ (Fin.last n)),
        Finset.prod_congr rfl fun j hj => quasiPath_other ho (Finset.ne_of_mem_erase hj)] at he'
      refine quasiPath_last hS.ne' hσ hT hu hw ho (mul_right_cancel₀ ?_ he')
      exact (Finset.prod_pos fun k _ => quasiPath_pos hS _ _ _ _ _ _ _).ne'

/-- **C77.** The quasi Monte Carlo prices of an Asian put converge. -/
theorem C77_put (h0 : 0 < dim) (hm : dim ≤ INT_MAX) (hq : q.seeded dim seed = .ok s0) (hP : Yields q.generate s0 P)
    (hZ : ∀ u, 0 < u → u < 1 → moroInvCdf u = .ok (Z u)) (hx : Equidistributed fun n j => P n j / q.scale)
    (hc : ∀ n, (fun j => P n j / q.scale) ∈ cube dim) {v : View ℝ} {T : ℝ} (hS : 0 < v.price) (hσ : v.sigma ≠ 0) (hT : 0 < T) (K : ℝ) :
    ∃ st, Quasi.construct q dim seed = .ok st ∧
      ∃ Y : ℕ → ℝ, (∀ N, (MC.asian .arithmetic (modelSource (Quasi.gen q) dim v .gbm) (Eff.lift (.ok v.r)) (Payoff.vanilla .put K).eval1 T N st).1 = .ok (Y N)) ∧
        Tendsto Y atTop (𝓝 (Real.exp (-(v.r * T)) * ∫ u in cube dim,
          max (K - (∑ k, quasiPath v.price v.r (v.coupon.getD 0) v.sigma T Z u k) / dim) 0)) := by
  obtain ⟨st, h1, h2⟩ := C77_limit_partial h0 hm hq hP hZ hx hc
  refine ⟨st, h1, (h2 v T hS hσ hT (fun x => max (K - x) 0) _ (fun x => put_eval K x) (by fun_prop) ⟨|K|, fun x hx => ?_⟩ ∅ Set.countable_empty
    fun x _ _ => by fun_prop).1⟩
  rw [abs_of_nonneg (le_max_right _ _)]
  exact max_le (by linarith [le_abs_self K]) (abs_nonneg K)

end

/-- A sequence that serves given points. -/
def pointSeq {d : ℕ} (P : ℕ → Fin d → ℝ) : Quasi.Sequence ℕ ℝ where
  seeded _ _ := .ok 0
  generate n := (.ok (List.ofFn (P n)), n + 1)
  scale := 1

theorem pointSeq_yields {d : ℕ} (P : ℕ → Fin d → ℝ) : Yields (pointSeq P).generate 0 P := by
  have key : ∀ N m, Draws (pointSeq P).generate m ((List.range N).map fun n => List.ofFn (P (m + n))) (m + N) := by
    intro N
    induction N with
    | zero => exact fun m => .nil _
    | succ N ih =>
      intro m
      rw [List.range_succ_eq_map, List.map_cons, List.map_map]
      refine .cons (s₁ := m + 1) rfl ?_
      have := ih (m + 1)
      rw [show m + (N + 1) = m + 1 + N by omega]
      have e : ((fun n => List.ofFn (P (m + n))) ∘ Nat.succ) = fun n => List.ofFn (P (m + 1 + n)) := by
        funext n
        simp only [Function.comp]
        rw [show m + n.succ = m + 1 + n by omega]
      rw [e]
      exact this
  intro N
  exact ⟨_, by simpa using key N 0⟩

/-- Uniform distribution of the points is not enough for a call, whose payoff is unbounded: there are uniformly distributed
points in the open cube for which the quasi Monte Carlo prices of an Asian call do not converge. -/
theorem C77_call_fails : ∃ P : ℕ → Fin 1 → ℝ, Equidistributed P ∧ (∀ n, P n ∈ cube 1) ∧
    ∀ st, Quasi.construct (pointSeq P) 1 7 = .ok st →
    ¬ ∃ (l : ℝ) (Y : ℕ → ℝ), (∀ N, (MC.asian .arithmetic (modelSource (Quasi.gen (pointSeq P)) 1 ⟨100, 1 / 5, none, 1 / 20⟩ .gbm) (Eff.lift (.ok (1 / 20)))
        (Payoff.vanilla .call (100 : ℝ)).eval1 1 N st).1 = .ok (Y N)) ∧ Tendsto Y atTop (𝓝 l) := by
  classical
  obtain ⟨x, hx, hxc⟩ := exists_equidistributed 1
  have hbig : ∀ M : ℝ, ∃ u : ℝ, 0 < u ∧ u < 1 ∧ M ≤ 100 * Real.exp ((1 / 20 - 0 - (1 / 5) ^ 2 / 2) * 1 + 1 / 5 * quantile u) - 100 := by
    intro M
    obtain ⟨f, hf1, -, -, -, -, -, hf⟩ := C43_quantile
    obtain ⟨u, h0, h1, h2⟩ := hf (|M| + 100)
    have e : f u = quantile u := by
      have := (hf1 u h0 h1).symm.trans (moroInvCdf_real h0 h1)
      simpa using this
    refine ⟨u, h0, h1, ?_⟩
    rw [e] at h2
    have h3 := Real.add_one_le_exp ((1 / 20 - 0 - (1 / 5) ^ 2 / 2) * 1 + 1 / 5 * quantile u)
    have := le_abs_self M
    have := abs_nonneg M
    linarith
  choose u hu0 hu1 hu using fun n : ℕ => hbig ((n + 1) * (n + 1))
  let P : ℕ → Fin 1 → ℝ := fun n => if IsSquare n then fun _ => u n else x n
  have hP : ∀ n, P n ∈ cube 1 := by
    intro n
    by_cases hs : IsSquare n
    · simp only [P, if_pos hs]
      exact fun j => ⟨hu0 n, hu1 n⟩
    · simp only [P, if_neg hs]
      exact hxc n
  refine ⟨P, hx.change_squares fun n hn => by simp only [P, if_neg hn], hP, ?_⟩
  rintro st hst ⟨l, Y, hY, hl⟩
  obtain ⟨st', h1, h2⟩ := C77_asian (q := pointSeq P) (dim := 1) (seed := 7) (by norm_num) (by norm_num [INT_MAX]) rfl (pointSeq_yields P)
    (Z := quantile) fun u => moroInvCdf_real
  obtain rfl : st = st' := by
    rw [hst] at h1
    simpa using h1
  have hval : ∀ N, Y N = Real.exp (-(1 / 20 * 1)) * ((∑ n ∈ Finset.range N,
      max ((∑ k, quasiPath 100 (1 / 20) 0 (1 / 5) 1 quantile (P n) k) / (1 : ℕ) - 100) 0) / N) := by
    intro N
    have h := (h2 ⟨100, 1 / 5, none, 1 / 20⟩ 1 (fun x => max (x - 100) 0) (Payoff.vanilla .call (100 : ℝ)).eval1 (by norm_num) (fun y => by
      simp [Payoff.eval1]) N fun n _ => by simpa [pointSeq] using hP n).1
    have e := (hY N).symm.trans h
    simpa [pointSeq] using e
  have hlow : ∀ k : ℕ, Real.exp (-(1 / 20 * 1)) * ((k * k : ℕ) + 1 : ℝ) ≤ Y (k * k + 1) := by
    intro k
    rw [hval]
    refine mul_le_mul_of_nonneg_left ?_ (Real.exp_pos _).le
    have hs : IsSquare (k * k) := ⟨k, rfl⟩
    have hterm : (((k * k : ℕ) : ℝ) + 1) * (((k * k : ℕ) : ℝ) + 1) ≤
        max ((∑ j, quasiPath 100 (1 / 20) 0 (1 / 5) 1 quantile (P (k * k)) j) / (1 : ℕ) - 100) 0 := by
      refine le_trans (hu (k * k)) (le_trans (le_of_eq ?_) (le_max_left _ _))
      have e : (Finset.Iic (0 : Fin 1)) = {0} := by decide
      simp [quasiPath, P, if_pos hs, e]
    have hsum := Finset.single_le_sum (f := fun n => max ((∑ j, quasiPath 100 (1 / 20) 0 (1 / 5) 1 quantile (P n) j) / (1 : ℕ) - 100) 0)
      (fun n _ => le_max_right _ _) (Finset.mem_range.mpr (Nat.lt_succ_self (k * k)))
    rw [le_div_iff₀ (by positivity)]
    push_cast at hterm hsum ⊢
    linarith
  have hsq : Tendsto (fun k : ℕ => k * k + 1) atTop atTop := tendsto_atTop_mono (fun k => (Nat.le_mul_self k).trans (Nat.le_succ _)) tendsto_id
  have hlim := hl.comp hsq
  have htop : Tendsto (fun k : ℕ => Real.exp (-(1 / 20 * 1)) * ((k * k : ℕ) + 1 : ℝ)) atTop atTop := by
    refine Tendsto.const_mul_atTop (Real.exp_pos _) ?_
    have := (tendsto_natCast_atTop_atTop (R := ℝ)).comp hsq
    refine this.congr fun k => ?_
    simp
  exact not_tendsto_nhds_of_tendsto_atTop (tendsto_atTop_mono hlow htop) l hlim

/-! ## Examples -/

/-- There are points and a sequence for every dimension as in `C77_put`; here 12 dates. -/
example : ∃ (P : ℕ → Fin 12 → ℝ) (st : Quasi.State ℕ ℝ) (Y : ℕ → ℝ), Quasi.construct (pointSeq P) 12 7 = .ok st ∧
    (∀ N, (MC.asian .arithmetic (modelSource (Quasi.gen (pointSeq P)) 12 ⟨100, 1 / 5, none, 1 / 20⟩ .gbm) (Eff.lift (.ok (1 / 20)))
      (Payoff.vanilla .put (100 : ℝ)).eval1 1 N st).1 = .ok (Y N)) ∧
    Tendsto Y atTop (𝓝 (Real.exp (-(1 / 20 * 1)) * ∫ u in cube 12, max (100 - (∑ k, quasiPath 100 (1 / 20) 0 (1 / 5) 1 quantile u k) / 12) 0)) := by
  obtain ⟨x, hx, hxc⟩ := exists_equidistributed 12
  have e : (fun n j => x n j / (pointSeq x).scale) = x := by funext n j; simp [pointSeq]
  obtain ⟨st, h1, Y, h2, h3⟩ := C77_put (q := pointSeq x) (dim := 12) (seed := 7) (by norm_num) (by norm_num [INT_MAX]) rfl (pointSeq_yields x)
    (Z := quantile) (fun u => moroInvCdf_real) (by rw [e]; exact hx) (fun n => by simpa [pointSeq] using hxc n)
    (v := ⟨100, 1 / 5, none, 1 / 20⟩) (T := 1) (by norm_num) (by norm_num) (by norm_num) 100
  refine ⟨x, st, Y, h1, h2, ?_⟩
  simpa using h3

/-- Three points in the plane: a European put, an Asian call and a barrier put priced from them. -/
example : ∃ st, Quasi.construct (pointSeq fun _ => ![1 / 2, 1 / 2]) 2 7 = .ok st ∧
    (MC.singlePath (modelSource (Quasi.gen (pointSeq fun _ => ![1 / 2, 1 / 2])) 2 ⟨100, 1 / 5, none, 1 / 50⟩ .gbm) (Eff.lift (.ok (1 / 50)))
      (Payoff.vanilla .put (110 : ℝ)).eval1 1 3 st).1 = .ok (Real.exp (-(1 / 50)) * 10) := by
  obtain ⟨st, h1, h2⟩ := C77_singlePath (q := pointSeq fun _ : ℕ => (![1 / 2, 1 / 2] : Fin 2 → ℝ)) (dim := 2) (seed := 7) (by norm_num)
    (by norm_num [INT_MAX]) rfl (pointSeq_yields _) (Z := quantile) fun u => moroInvCdf_real
  refine ⟨st, h1, ?_⟩
  have hq : quantile (1 / 2) = 0 := by rw [quantile, if_neg (lt_irrefl _), lowerQuantile_half]
  have h := h2 ⟨100, 1 / 5, none, 1 / 50⟩ 1 (fun x => max (110 - x) 0) _ (fun x => put_eval 110 x) 3 (by norm_num [INT_MAX]) (by
    intro n _ j
    fin_cases j <;> norm_num [pointSeq])
  rw [h]
  have e : ∀ u : Fin 2 → ℝ, (∀ j, quantile (u j) = 0) → quasiPath (100 : ℝ) (1 / 50) 0 (1 / 5) 1 quantile u ⟨2 - 1, by omega⟩ = 100 := by
    intro u hu
    simp only [quasiPath, hu]
    norm_num
  refine congrArg Res.ok ?_
  simp only [Option.getD_none]
  rw [Finset.sum_congr rfl fun n _ => congrArg (fun x : ℝ => max (110 - x) 0) (e _ fun j => by
    rw [← hq]
    fin_cases j <;> norm_num [pointSeq])]
  norm_num

/-- The second point has a coordinate 0: two paths already fail. -/
example : ∃ st, Quasi.construct (pointSeq fun n => ![1 / 2, if n = 1 then 0 else 1 / 2]) 2 7 = .ok st ∧
    (MC.asian .arithmetic (modelSource (Quasi.gen (pointSeq fun n => ![1 / 2, if n = 1 then 0 else 1 / 2])) 2 ⟨100, 1 / 5, none, 1 / 50⟩ .gbm) (Eff.lift (.ok (1 / 50)))
      (Payoff.vanilla .put (110 : ℝ)).eval1 1 2 st).1.Throws .invalidArgument := by
  obtain ⟨st, h1, h2⟩ := C77_throws (q := pointSeq fun n : ℕ => (![1 / 2, if n = 1 then 0 else 1 / 2] : Fin 2 → ℝ)) (dim := 2) (seed := 7) (by norm_num)
    (by norm_num [INT_MAX]) rfl (pointSeq_yields _) (n := 1) (by norm_num [INT_MAX]) (by
      intro i hi j
      obtain rfl : i = 0 := by omega
      fin_cases j <;> norm_num [pointSeq]) (by
      intro h
      have := (h 1).1
      norm_num [pointSeq] at this)
  exact ⟨st, h1, (h2 ⟨100, 1 / 5, none, 1 / 50⟩ 1 (fun x => max (110 - x) 0) _ (fun x => put_eval 110 x) 2 (by norm_num)).2.1 .arithmetic⟩

end Verif
