import Verif.Lemmas.PathDependentError

/-!
# Property C88: path-dependent prices in double precision
-/

set_option exponentiation.threshold 3000

namespace Verif
open Spec

section
variable {G : Type} (g : Gen G (Dbl .binary64)) {S sigma r T : ℝ} {q : Option ℝ} {n : ℕ}

/-- The computed prices of one path, as a function of the date. -/
theorem computed_path (hn0 : 0 < n) (hn : n ≤ INT_MAX) {zs : List ℝ} (hl : zs.length = n) {s s' : G}
    (hD : Draws (g.draw .stdNormal) (g.newDist .stdNormal s) (zs.map fun x : ℝ => .num x) s') (hm : Moderate S sigma r (q.getD 0) T n fun l => zs.getD l 0) :
    ∃ p : ℕ → ℝ, Sim.prices g n ⟨.num S, .num sigma, q.map fun x : ℝ => .num x, .num r⟩ (.num T) .gbm s =
        (.ok (((List.range n).map p).map fun x : ℝ => .num x), s') ∧
      CloseBy (2 ^ (-49 : ℤ) * gbmWork sigma r (q.getD 0) T n (fun l => zs.getD l 0) (n - 1)) n p (gbmPath S sigma r (q.getD 0) T n fun l => zs.getD l 0) := by
  subst hl
  obtain ⟨ps, p1, p2, p3⟩ := C81_path binary64_doubleAccurate g (q := q) hD hn hm
  have e : ps = (List.range zs.length).map fun j => ps.getD j 0 := by
    refine List.ext_getElem (by simp [p2]) fun j h1 h2 => ?_
    simp [List.getD_eq_getElem?_getD, List.getElem?_eq_getElem h1]
  refine ⟨fun j => ps.getD j 0, by rw [← e]; exact p1, fun j hj => ⟨(p3 j hj).1, (p3 j hj).2.trans ?_⟩⟩
  have hP : 0 < gbmPath S sigma r (q.getD 0) T zs.length (fun l => zs.getD l 0) j := (Real.exp_pos _).trans_le (hm.prices j hj).1
  have hd : 0 ≤ T / zs.length := le_trans (by positivity) hm.step.1
  have := gbmWork_mono (sigma := sigma) (r := r) (q := q.getD 0) (T := T) (n := zs.length) (z := fun l => zs.getD l 0) hd (show j ≤ zs.length - 1 by omega)
  gcongr

/-- All paths of a pricer that uses whole paths, and what they pay. -/
theorem whole_paths (hn0 : 0 < n) (hn : n ≤ INT_MAX) {ev : List (Dbl .binary64) → Res (Dbl .binary64)} {f e : List ℝ → ℝ} {s s' : G} {zss : List (List ℝ)}
    (hD : PathDraws g n s zss s') (hm : ∀ zs ∈ zss, Moderate S sigma r (q.getD 0) T n fun l => zs.getD l 0)
    (hev : ∀ zs ∈ zss, ∀ p : ℕ → ℝ, CloseBy (2 ^ (-49 : ℤ) * gbmWork sigma r (q.getD 0) T n (fun l => zs.getD l 0) (n - 1)) n p
      (gbmPath S sigma r (q.getD 0) T n fun l => zs.getD l 0) →
      ∃ w : ℝ, ev (((List.range n).map p).map fun x : ℝ => .num x) = .ok (.num w) ∧ 0 ≤ w ∧ w ≤ 2 ^ (510 : ℤ) ∧ |w - f zs| ≤ e zs) :
    ∃ (as : List (List (Dbl .binary64))) (w : List ℝ),
      Draws (Sim.prices g n ⟨.num S, .num sigma, q.map fun x : ℝ => .num x, .num r⟩ (.num T) .gbm) s as s' ∧
      Pays ev as (w.map fun x : ℝ => .num x) ∧ as.length = zss.length ∧ (∀ x ∈ w, 0 ≤ x) ∧
      w.sum ≤ zss.length * 2 ^ (510 : ℤ) ∧ |w.sum - (zss.map f).sum| ≤ (zss.map e).sum := by
  induction hD with
  | nil s => exact ⟨[], [], .nil s, .nil, rfl, by simp, by simp, by simp⟩
  | @cons s s₁ s₂ zs zss hl h t ih =>
    obtain ⟨as, w, h1, h2, h3, h4, h5, h6⟩ := ih (fun zs hz => hm zs (by simp [hz])) fun zs hz => hev zs (by simp [hz])
    obtain ⟨p, p1, p2⟩ := computed_path g hn0 hn hl h (hm zs (by simp))
    obtain ⟨x, x1, x2, x3, x4⟩ := hev zs (by simp) p p2
    refine ⟨_ :: as, x :: w, .cons p1 h1, .cons x1 h2, by simp [h3], by simpa [x2] using h4, ?_, ?_⟩
    · simp only [List.sum_cons, List.length_cons, Nat.cast_add, Nat.cast_one]
      generalize (2 : ℝ) ^ (510 : ℤ) = t' at *
      linarith
    · simp only [List.sum_cons, List.map_cons]
      have := abs_add_le (x - f zs) (w.sum - (zss.map f).sum)
      rw [sub_add_sub_comm] at this
      exact this.trans (add_le_add x4 h6)

/-- All paths of a pricer that uses the last prices, and what they pay. -/
theorem last_prices (hn0 : 0 < n) (hn : n ≤ INT_MAX) {ev : Dbl .binary64 → Res (Dbl .binary64)} {f e : List ℝ → ℝ} {s s' : G} {zss : List (List ℝ)}
    (hD : PathDraws g n s zss s') (hm : ∀ zs ∈ zss, Moderate S sigma r (q.getD 0) T n fun l => zs.getD l 0)
    (hev : ∀ zs ∈ zss, ∀ p : ℝ, |p - gbmPath S sigma r (q.getD 0) T n (fun l => zs.getD l 0) (n - 1)| ≤
        2 ^ (-49 : ℤ) * gbmWork sigma r (q.getD 0) T n (fun l => zs.getD l 0) (n - 1) * gbmPath S sigma r (q.getD 0) T n (fun l => zs.getD l 0) (n - 1) →
      ∃ w : ℝ, ev (.num p) = .ok (.num w) ∧ 0 ≤ w ∧ w ≤ 2 ^ (510 : ℤ) ∧ |w - f zs| ≤ e zs) :
    ∃ (as : List (Dbl .binary64)) (w : List ℝ),
      Draws (Sim.maturity g n ⟨.num S, .num sigma, q.map fun x : ℝ => .num x, .num r⟩ (.num T) .gbm) s as s' ∧
      Pays ev as (w.map fun x : ℝ => .num x) ∧ as.length = zss.length ∧ (∀ x ∈ w, 0 ≤ x) ∧
      w.sum ≤ zss.length * 2 ^ (510 : ℤ) ∧ |w.sum - (zss.map f).sum| ≤ (zss.map e).sum := by
  induction hD with
  | nil s => exact ⟨[], [], .nil s, .nil, rfl, by simp, by simp, by simp⟩
  | @cons s s₁ s₂ zs zss hl h t ih =>
    obtain ⟨as, w, h1, h2, h3, h4, h5, h6⟩ := ih (fun zs hz => hm zs (by simp [hz])) fun zs hz => hev zs (by simp [hz])
    obtain ⟨p, p1, p2⟩ := computed_path g hn0 hn hl h (hm zs (by simp))
    obtain ⟨x, x1, x2, x3, x4⟩ := hev zs (by simp) (p (n - 1)) (p2 (n - 1) (by omega)).2
    have hmat : Sim.maturity g n ⟨.num S, .num sigma, q.map fun x : ℝ => .num x, .num r⟩ (.num T) .gbm s = (.ok (.num (p (n - 1) : ℝ)), s₁) := by
      unfold Sim.maturity
      rw [Eff.bind_of_ok p1]
      have : vback (((List.range n).map p).map fun x : ℝ => (.num x : Dbl .binary64)) = .ok (.num (p (n - 1) : ℝ)) := by
        unfold vback
        rw [List.getLast?_map, List.getLast?_map, List.getLast?_range, if_neg (by omega)]
        rfl
      rw [this]
      rfl
    refine ⟨_ :: as, x :: w, .cons hmat h1, .cons x1 h2, by simp [h3], by simpa [x2] using h4, ?_, ?_⟩
    · simp only [List.sum_cons, List.length_cons, Nat.cast_add, Nat.cast_one]
      generalize (2 : ℝ) ^ (510 : ℤ) = t' at *
      linarith
    · simp only [List.sum_cons, List.map_cons]
      have := abs_add_le (x - f zs) (w.sum - (zss.map f).sum)
      rw [sub_add_sub_comm] at this
      exact this.trans (add_le_add x4 h6)

/-- From the payoffs to the price. -/
theorem meanUpTo_of {out : Res (Dbl .binary64)} {y ws : ℝ} {f e : List ℝ} (ho : out = .ok (.num y)) (hl : f.length = e.length) (hN : 0 < f.length)
    (hy : |y - Real.exp (-(r * T)) * (ws / f.length)| ≤ (f.length + 9) * 2 ^ (-52 : ℤ) * (Real.exp (-(r * T)) * (ws / f.length)) + 2 ^ (-1070 : ℤ))
    (h : |ws - f.sum| ≤ e.sum) : MeanUpTo out r T f e := by
  refine ⟨y, ho, ?_⟩
  unfold discountedMean
  rw [← hl]
  have hl0 : (0 : ℝ) < f.length := by exact_mod_cast hN
  have hd := Real.exp_pos (-(r * T))
  generalize Real.exp (-(r * T)) = d at *
  generalize f.sum = fs at *
  generalize e.sum = es at *
  have c1 : |d * (ws / f.length) - d * (fs / f.length)| ≤ d * (es / f.length) := by
    rw [← mul_sub, ← sub_div, abs_mul, abs_div, abs_of_pos hd, abs_of_pos hl0]
    gcongr
  have c2 : d * (ws / f.length) ≤ d * (fs / f.length) + d * (es / f.length) := by
    have := (abs_le.mp c1).2
    linarith
  have c3 : ((f.length : ℝ) + 9) * 2 ^ (-52 : ℤ) * (d * (ws / f.length)) ≤
      (f.length + 9) * 2 ^ (-52 : ℤ) * (d * (fs / f.length) + d * (es / f.length)) := mul_le_mul_of_nonneg_left c2 (by positivity)
  have c4 := abs_sub_le y (d * (ws / f.length)) (d * (fs / f.length))
  generalize (2 : ℝ) ^ (-1070 : ℤ) = t at *
  generalize ((f.length : ℝ) + 9) * 2 ^ (-52 : ℤ) = B at *
  linarith

end

section
variable {E Q : Type} (env : Env E Q (Dbl .binary64)) {i : Session (Dbl .binary64)} {c : Session.Choices} {o : OptObj (Dbl .binary64)}
  {S sigma r T : ℝ} {q : Option ℝ} {x : E} {zss : List (List ℝ)}

theorem Spec.DoubleRun.seen (hd : DoubleRun env i S sigma r q T x zss) : ModelObj.seen (stockOf i) i.r = ⟨.num S, .num sigma, q.map fun x : ℝ => .num x, .num r⟩ := by
  unfold ModelObj.seen stockOf
  rw [hd.price, hd.vol, hd.coupon, hd.rate]

theorem Spec.DoubleRun.optT (hd : DoubleRun env i S sigma r q T x zss) (h : AcceptedSession i c .gbm o) : o.T = .num T :=
  (Param.dbl.inj (Option.some.inj (hd.maturity.symm.trans h.option.2.2.1))).symm

theorem Spec.DoubleRun.sum_le (hd : DoubleRun env i S sigma r q T x zss) {ws : ℝ} (h : ws ≤ zss.length * 2 ^ (510 : ℤ)) : ws ≤ 2 ^ (1000 : ℤ) := by
  have b1 : (zss.length : ℝ) ≤ INT_MAX := by exact_mod_cast hd.paths.2
  refine h.trans ((mul_le_mul_of_nonneg_right b1 (by positivity)).trans ?_)
  norm_num [INT_MAX]

theorem strike_payoff {f : OptClass} {ps : List (String × Param (Dbl .binary64))} {ty : PayoffType} {p : Payoff (Dbl .binary64)} {K : Dbl .binary64}
    (hf : f ≠ .doubleDigital ∧ f ≠ .floatingLookback ∧ f ≠ .digital) (h : PayoffOf f ps ty p) (hK : lastSet ps "K" = some (.dbl K)) : p = .vanilla ty K := by
  have : ∃ k, lastSet ps "K" = some (.dbl k) ∧ Fl.lt k (lit 0) = false ∧ p = .vanilla ty k := by
    revert h
    cases f <;> simp_all [PayoffOf]
  obtain ⟨k, k1, -, k2⟩ := this
  rw [k2, Param.dbl.inj (Option.some.inj (k1.symm.trans hK))]

theorem Spec.DoubleRun.range (hd : DoubleRun env i S sigma r q T x zss) {zs : List ℝ} (hz : zs ∈ zss) : Range300 i.dim (pathOf S sigma r q T i.dim zs) := (hd.moderate zs hz).prices

theorem Spec.DoubleRun.work (hd : DoubleRun env i S sigma r q T x zss) {zs : List ℝ} (hz : zs ∈ zss) :
    (i.dim : ℝ) ≤ workOf sigma r q T i.dim zs ∧ workOf sigma r q T i.dim zs ≤ 2 ^ 40 ∧ 0 ≤ 2 ^ (-49 : ℤ) * workOf sigma r q T i.dim zs ∧ 2 ^ (-49 : ℤ) * workOf sigma r q T i.dim zs ≤ 1 := by
  have h1 := natCast_le_gbmWork (sigma := sigma) (r := r) (q := q.getD 0) (z := fun l => zs.getD l 0) (le_trans (by positivity) (hd.moderate zs hz).step.1) hd.dim.1
  have h2 := (hd.moderate zs hz).work
  refine ⟨h1, h2, mul_nonneg (by positivity) ((Nat.cast_nonneg _).trans h1), (mul_le_mul_of_nonneg_left h2 (by positivity)).trans (by norm_num)⟩

/-- **C88.** A fixed-strike lookback option. -/
theorem C88_fixedLookback (h : AcceptedSession i c .gbm o) (hf : i.factory = .fixedLookback) (hd : DoubleRun env i S sigma r q T x zss) {K : ℝ} (hK : lastSet i.params "K" = some (.dbl (.num K))) (hK2 : |K| ≤ 2 ^ (500 : ℤ)) (s : Sys E Q (Dbl .binary64)) :
    MeanUpTo (started env c i s zss.length x).1 r T
      (zss.map fun zs => fixedLookback (i.ty = .call) K i.dim (pathOf S sigma r q T i.dim zs))
      (zss.map fun zs => valueError (2 ^ (-49 : ℤ) * workOf sigma r q T i.dim zs) K
        (if i.ty = .call then highest i.dim (pathOf S sigma r q T i.dim zs) else lowest i.dim (pathOf S sigma r q T i.dim zs))) := by
  obtain ⟨x', hD⟩ := hd.draws
  have hcls : i.cls = .fixedLookback := by
    have := h.family
    rw [hf] at this
    cases hc : i.cls <;> simp_all [Family]
  have hop : o.payoff = .vanilla i.ty (.num K) := strike_payoff (by rw [hf]; simp) h.option.2.2.2.2.1 hK
  obtain ⟨as, w, a1, a2, a3, a4, a5, a6⟩ := whole_paths env.engine.gen hd.dim.1 hd.dim.2 (ev := MC.lookbackPath .fixed (.vanilla i.ty (.num (K : ℝ))) i.dim) hD hd.moderate
    (f := fun zs => fixedLookback (i.ty = .call) K i.dim (pathOf S sigma r q T i.dim zs)) (e := fun zs => valueError (2 ^ (-49 : ℤ) * workOf sigma r q T i.dim zs) K
        (if i.ty = .call then highest i.dim (pathOf S sigma r q T i.dim zs) else lowest i.dim (pathOf S sigma r q T i.dim zs)))
    (fun zs hz p hp => fixed_pays hd.dim.1 hd.dim.2 i.ty hK2 (hd.work env hz).2.2.1 (hd.work env hz).2.2.2 (hd.range env hz) hp)
  obtain ⟨y, y1, y2⟩ := C66_lookback .fixed (ModelKind.source env.engine.gen i.dim ⟨.num S, .num sigma, q.map fun x : ℝ => .num x, .num r⟩ .gbm) (getR := pure (.num r)) (.vanilla i.ty (.num (K : ℝ))) hd.small (s := x) (s' := x') rfl a1 a2 a4 (a3 ▸ hd.paths.1) (a3 ▸ hd.paths.2) (hd.sum_le env a5)
  rw [a3] at y1 y2
  refine meanUpTo_of (y := y) (ws := w.sum) ?_ (by simp) (by simpa using hd.paths.1) (by rw [List.length_map]; exact y2) a6
  rw [started_price env h s, hcls, hd.seen, hd.rate]
  show (MC.lookback .fixed _ (pure (.num r)) o.payoff o.T zss.length x).1 = _
  rw [hop, hd.optT env h, y1]

/-- **C88.** A floating-strike lookback option. -/
theorem C88_floatingLookback (h : AcceptedSession i c .gbm o) (hf : i.factory = .floatingLookback) (hd : DoubleRun env i S sigma r q T x zss) (s : Sys E Q (Dbl .binary64)) :
    MeanUpTo (started env c i s zss.length x).1 r T
      (zss.map fun zs => floatingLookback (i.ty = .call) i.dim (pathOf S sigma r q T i.dim zs))
      (zss.map fun zs => (2 ^ (-49 : ℤ) * workOf sigma r q T i.dim zs + 2 ^ (-51 : ℤ)) *
        (pathOf S sigma r q T i.dim zs (i.dim - 1) + if i.ty = .call then lowest i.dim (pathOf S sigma r q T i.dim zs) else highest i.dim (pathOf S sigma r q T i.dim zs))) := by
  obtain ⟨x', hD⟩ := hd.draws
  have hcls : i.cls = .floatingLookback := by
    have := h.family
    rw [hf] at this
    cases hc : i.cls <;> simp_all [Family]
  have hop : o.payoff = .floatingLookback i.ty := by
    have := h.option.2.2.2.2.1
    rwa [hf] at this
  obtain ⟨as, w, a1, a2, a3, a4, a5, a6⟩ := whole_paths env.engine.gen hd.dim.1 hd.dim.2 (ev := MC.lookbackPath .floating (.floatingLookback i.ty) i.dim) hD hd.moderate
    (f := fun zs => floatingLookback (i.ty = .call) i.dim (pathOf S sigma r q T i.dim zs)) (e := fun zs => (2 ^ (-49 : ℤ) * workOf sigma r q T i.dim zs + 2 ^ (-51 : ℤ)) *
        (pathOf S sigma r q T i.dim zs (i.dim - 1) + if i.ty = .call then lowest i.dim (pathOf S sigma r q T i.dim zs) else highest i.dim (pathOf S sigma r q T i.dim zs)))
    (fun zs hz p hp => floating_pays hd.dim.1 hd.dim.2 i.ty (hd.work env hz).2.2.1 (hd.work env hz).2.2.2 (hd.range env hz) hp)
  obtain ⟨y, y1, y2⟩ := C66_lookback .floating (ModelKind.source env.engine.gen i.dim ⟨.num S, .num sigma, q.map fun x : ℝ => .num x, .num r⟩ .gbm) (getR := pure (.num r)) (.floatingLookback i.ty) hd.small (s := x) (s' := x') rfl a1 a2 a4 (a3 ▸ hd.paths.1) (a3 ▸ hd.paths.2) (hd.sum_le env a5)
  rw [a3] at y1 y2
  refine meanUpTo_of (y := y) (ws := w.sum) ?_ (by simp) (by simpa using hd.paths.1) (by rw [List.length_map]; exact y2) a6
  rw [started_price env h s, hcls, hd.seen, hd.rate]
  show (MC.lookback .floating _ (pure (.num r)) o.payoff o.T zss.length x).1 = _
  rw [hop, hd.optT env h, y1]

/-- **C88.** An Asian option on the arithmetic mean. -/
theorem C88_arithmeticAsian (h : AcceptedSession i c .gbm o) (hf : i.factory = .arithmeticAsian) (hd : DoubleRun env i S sigma r q T x zss) {K : ℝ} (hK : lastSet i.params "K" = some (.dbl (.num K))) (hK2 : |K| ≤ 2 ^ (500 : ℤ)) (s : Sys E Q (Dbl .binary64)) :
    MeanUpTo (started env c i s zss.length x).1 r T
      (zss.map fun zs => vanillaValue (i.ty = .call) K (meanOf i.dim (pathOf S sigma r q T i.dim zs)))
      (zss.map fun zs => valueError (2 ^ (-48 : ℤ) * workOf sigma r q T i.dim zs) K (meanOf i.dim (pathOf S sigma r q T i.dim zs))) := by
  obtain ⟨x', hD⟩ := hd.draws
  have hcls : i.cls = .arithmeticAsian := by
    have := h.family
    rw [hf] at this
    cases hc : i.cls <;> simp_all [Family]
  have hop : o.payoff = .vanilla i.ty (.num K) := strike_payoff (by rw [hf]; simp) h.option.2.2.2.2.1 hK
  obtain ⟨as, w, a1, a2, a3, a4, a5, a6⟩ := whole_paths env.engine.gen hd.dim.1 hd.dim.2 (ev := MC.asianPath .arithmetic (Payoff.vanilla i.ty (.num (K : ℝ))).eval1 i.dim) hD hd.moderate
    (f := fun zs => vanillaValue (i.ty = .call) K (meanOf i.dim (pathOf S sigma r q T i.dim zs))) (e := fun zs => valueError (2 ^ (-48 : ℤ) * workOf sigma r q T i.dim zs) K (meanOf i.dim (pathOf S sigma r q T i.dim zs)))
    (fun zs hz p hp => arithmetic_pays hd.dim.1 hd.dim.2 i.ty hK2 (hd.work env hz).1 (hd.work env hz).2.1 (hd.range env hz) hp)
  obtain ⟨y, y1, y2⟩ := C66_asian .arithmetic (ModelKind.source env.engine.gen i.dim ⟨.num S, .num sigma, q.map fun x : ℝ => .num x, .num r⟩ .gbm) (getR := pure (.num r)) (pay := (Payoff.vanilla i.ty (.num (K : ℝ))).eval1) hd.small (s := x) (s' := x') rfl a1 a2 a4 (a3 ▸ hd.paths.1) (a3 ▸ hd.paths.2.trans (by norm_num [INT_MAX])) (hd.sum_le env a5)
  rw [a3] at y1 y2
  refine meanUpTo_of (y := y) (ws := w.sum) ?_ (by simp) (by simpa using hd.paths.1) (by rw [List.length_map]; exact y2) a6
  rw [started_price env h s, hcls, hd.seen, hd.rate]
  show (MC.asian .arithmetic _ (pure (.num r)) o.payoff.eval1 o.T zss.length x).1 = _
  rw [hop, hd.optT env h, y1]

/-- **C88.** An Asian option on the geometric mean. -/
theorem C88_geometricAsian (h : AcceptedSession i c .gbm o) (hf : i.factory = .geometricAsian) (hd : DoubleRun env i S sigma r q T x zss) {K : ℝ} (hK : lastSet i.params "K" = some (.dbl (.num K))) (hK2 : |K| ≤ 2 ^ (500 : ℤ)) (s : Sys E Q (Dbl .binary64)) :
    MeanUpTo (started env c i s zss.length x).1 r T
      (zss.map fun zs => vanillaValue (i.ty = .call) K (geomMeanOf i.dim (pathOf S sigma r q T i.dim zs)))
      (zss.map fun zs => valueError (2 ^ (-40 : ℤ) * workOf sigma r q T i.dim zs) K (geomMeanOf i.dim (pathOf S sigma r q T i.dim zs))) := by
  obtain ⟨x', hD⟩ := hd.draws
  have hcls : i.cls = .geometricAsian := by
    have := h.family
    rw [hf] at this
    cases hc : i.cls <;> simp_all [Family]
  have hop : o.payoff = .vanilla i.ty (.num K) := strike_payoff (by rw [hf]; simp) h.option.2.2.2.2.1 hK
  obtain ⟨as, w, a1, a2, a3, a4, a5, a6⟩ := whole_paths env.engine.gen hd.dim.1 hd.dim.2 (ev := MC.asianPath .geometric (Payoff.vanilla i.ty (.num (K : ℝ))).eval1 i.dim) hD hd.moderate
    (f := fun zs => vanillaValue (i.ty = .call) K (geomMeanOf i.dim (pathOf S sigma r q T i.dim zs))) (e := fun zs => valueError (2 ^ (-40 : ℤ) * workOf sigma r q T i.dim zs) K (geomMeanOf i.dim (pathOf S sigma r q T i.dim zs)))
    (fun zs hz p hp => geometric_pays hd.dim.1 hd.dim.2 i.ty hK2 (hd.work env hz).1 (hd.work env hz).2.1 (hd.range env hz) hp)
  obtain ⟨y, y1, y2⟩ := C66_asian .geometric (ModelKind.source env.engine.gen i.dim ⟨.num S, .num sigma, q.map fun x : ℝ => .num x, .num r⟩ .gbm) (getR := pure (.num r)) (pay := (Payoff.vanilla i.ty (.num (K : ℝ))).eval1) hd.small (s := x) (s' := x') rfl a1 a2 a4 (a3 ▸ hd.paths.1) (a3 ▸ hd.paths.2.trans (by norm_num [INT_MAX])) (hd.sum_le env a5)
  rw [a3] at y1 y2
  refine meanUpTo_of (y := y) (ws := w.sum) ?_ (by simp) (by simpa using hd.paths.1) (by rw [List.length_map]; exact y2) a6
  rw [started_price env h s, hcls, hd.seen, hd.rate]
  show (MC.asian .geometric _ (pure (.num r)) o.payoff.eval1 o.T zss.length x).1 = _
  rw [hop, hd.optT env h, y1]

/-- **C88.** A knock-in option, when no exact price is within rounding distance of the barrier. -/
theorem C88_knockIn (h : AcceptedSession i c .gbm o) (hf : i.factory = .knockIn) (hd : DoubleRun env i S sigma r q T x zss) {K : ℝ} (hK : lastSet i.params "K" = some (.dbl (.num K))) (hK2 : |K| ≤ 2 ^ (500 : ℤ))
    {B : ℝ} {d : BarrierDirection} (hB : lastSet i.params "B" = some (.dbl (.num B))) (hdir : lastSet i.params "direction" = some (.dir d))
    (hclear : ∀ zs ∈ zss, ClearOf B (2 ^ (-49 : ℤ) * workOf sigma r q T i.dim zs) i.dim (pathOf S sigma r q T i.dim zs)) (s : Sys E Q (Dbl .binary64)) :
    MeanUpTo (started env c i s zss.length x).1 r T
      (zss.map fun zs => knockInValue (i.ty = .call) K B d i.dim (pathOf S sigma r q T i.dim zs))
      (zss.map fun zs => valueError (2 ^ (-49 : ℤ) * workOf sigma r q T i.dim zs) K (pathOf S sigma r q T i.dim zs (i.dim - 1))) := by
  obtain ⟨x', hD⟩ := hd.draws
  have hcls : i.cls = .knockIn := by
    have := h.family
    rw [hf] at this
    cases hc : i.cls <;> simp_all [Family]
  have hop : o.payoff = .vanilla i.ty (.num K) := strike_payoff (by rw [hf]; simp) h.option.2.2.2.2.1 hK
  have hact : Pricer.isActive o = OptionModel.knockInIsActive (.num B) d := by
    obtain ⟨o1, -, -, -, -, o6⟩ := h.option
    rw [hf] at o1 o6
    obtain ⟨B', d', b1, b2, b3⟩ := o6
    funext y
    unfold Pricer.isActive
    rw [b3, o1, Param.dbl.inj (Option.some.inj (b1.symm.trans hB)), Param.dir.inj (Option.some.inj (b2.symm.trans hdir))]
  obtain ⟨as, w, a1, a2, a3, a4, a5, a6⟩ := whole_paths env.engine.gen hd.dim.1 hd.dim.2 (ev := MC.barrierPath .knockIn (OptionModel.knockInIsActive (.num B) d) (Payoff.vanilla i.ty (.num (K : ℝ))).eval1 i.dim) hD hd.moderate
    (f := fun zs => knockInValue (i.ty = .call) K B d i.dim (pathOf S sigma r q T i.dim zs)) (e := fun zs => valueError (2 ^ (-49 : ℤ) * workOf sigma r q T i.dim zs) K (pathOf S sigma r q T i.dim zs (i.dim - 1)))
    (fun zs hz p hp => knockIn_pays hd.dim.1 hd.dim.2 d i.ty hK2 (hd.work env hz).2.2.2 (hd.range env hz) hp (hclear zs hz))
  obtain ⟨y, y1, y2⟩ := C66_barrier .knockIn (ModelKind.source env.engine.gen i.dim ⟨.num S, .num sigma, q.map fun x : ℝ => .num x, .num r⟩ .gbm) (getR := pure (.num r)) (OptionModel.knockInIsActive (.num B) d) (pay := (Payoff.vanilla i.ty (.num (K : ℝ))).eval1) hd.small (s := x) (s' := x') rfl a1 a2 a4 (a3 ▸ hd.paths.1) (a3 ▸ hd.paths.2) (hd.sum_le env a5)
  rw [a3] at y1 y2
  refine meanUpTo_of (y := y) (ws := w.sum) ?_ (by simp) (by simpa using hd.paths.1) (by rw [List.length_map]; exact y2) a6
  rw [started_price env h s, hcls, hd.seen, hd.rate]
  show (MC.barrier .knockIn _ (pure (.num r)) (Pricer.isActive o) o.payoff.eval1 o.T zss.length x).1 = _
  rw [hop, hact, hd.optT env h, y1]

/-- **C88.** A knock-out option, when no exact price is within rounding distance of the barrier. -/
theorem C88_knockOut (h : AcceptedSession i c .gbm o) (hf : i.factory = .knockOut) (hd : DoubleRun env i S sigma r q T x zss) {K : ℝ} (hK : lastSet i.params "K" = some (.dbl (.num K))) (hK2 : |K| ≤ 2 ^ (500 : ℤ))
    {B : ℝ} {d : BarrierDirection} (hB : lastSet i.params "B" = some (.dbl (.num B))) (hdir : lastSet i.params "direction" = some (.dir d))
    (hclear : ∀ zs ∈ zss, ClearOf B (2 ^ (-49 : ℤ) * workOf sigma r q T i.dim zs) i.dim (pathOf S sigma r q T i.dim zs)) (s : Sys E Q (Dbl .binary64)) :
    MeanUpTo (started env c i s zss.length x).1 r T
      (zss.map fun zs => knockOutValue (i.ty = .call) K B d i.dim (pathOf S sigma r q T i.dim zs))
      (zss.map fun zs => valueError (2 ^ (-49 : ℤ) * workOf sigma r q T i.dim zs) K (pathOf S sigma r q T i.dim zs (i.dim - 1))) := by
  obtain ⟨x', hD⟩ := hd.draws
  have hcls : i.cls = .knockOut := by
    have := h.family
    rw [hf] at this
    cases hc : i.cls <;> simp_all [Family]
  have hop : o.payoff = .vanilla i.ty (.num K) := strike_payoff (by rw [hf]; simp) h.option.2.2.2.2.1 hK
  have hact : Pricer.isActive o = OptionModel.knockOutIsActive (.num B) d := by
    obtain ⟨o1, -, -, -, -, o6⟩ := h.option
    rw [hf] at o1 o6
    obtain ⟨B', d', b1, b2, b3⟩ := o6
    funext y
    unfold Pricer.isActive
    rw [b3, o1, Param.dbl.inj (Option.some.inj (b1.symm.trans hB)), Param.dir.inj (Option.some.inj (b2.symm.trans hdir))]
  obtain ⟨as, w, a1, a2, a3, a4, a5, a6⟩ := whole_paths env.engine.gen hd.dim.1 hd.dim.2 (ev := MC.barrierPath .knockOut (OptionModel.knockOutIsActive (.num B) d) (Payoff.vanilla i.ty (.num (K : ℝ))).eval1 i.dim) hD hd.moderate
    (f := fun zs => knockOutValue (i.ty = .call) K B d i.dim (pathOf S sigma r q T i.dim zs)) (e := fun zs => valueError (2 ^ (-49 : ℤ) * workOf sigma r q T i.dim zs) K (pathOf S sigma r q T i.dim zs (i.dim - 1)))
    (fun zs hz p hp => knockOut_pays hd.dim.1 hd.dim.2 d i.ty hK2 (hd.work env hz).2.2.2 (hd.range env hz) hp (hclear zs hz))
  obtain ⟨y, y1, y2⟩ := C66_barrier .knockOut (ModelKind.source env.engine.gen i.dim ⟨.num S, .num sigma, q.map fun x : ℝ => .num x, .num r⟩ .gbm) (getR := pure (.num r)) (OptionModel.knockOutIsActive (.num B) d) (pay := (Payoff.vanilla i.ty (.num (K : ℝ))).eval1) hd.small (s := x) (s' := x') rfl a1 a2 a4 (a3 ▸ hd.paths.1) (a3 ▸ hd.paths.2) (hd.sum_le env a5)
  rw [a3] at y1 y2
  refine meanUpTo_of (y := y) (ws := w.sum) ?_ (by simp) (by simpa using hd.paths.1) (by rw [List.length_map]; exact y2) a6
  rw [started_price env h s, hcls, hd.seen, hd.rate]
  show (MC.barrier .knockOut _ (pure (.num r)) (Pricer.isActive o) o.payoff.eval1 o.T zss.length x).1 = _
  rw [hop, hact, hd.optT env h, y1]

/-- **C88.** A digital option, when no exact price at maturity is within rounding distance of the strike: its payoffs are exact. -/
theorem C88_digital (h : AcceptedSession i c .gbm o) (hf : i.factory = .digital) (hd : DoubleRun env i S sigma r q T x zss) {K : ℝ} (hK : lastSet i.params "K" = some (.dbl (.num K)))
    (hclear : ∀ zs ∈ zss, 2 ^ (-49 : ℤ) * workOf sigma r q T i.dim zs * pathOf S sigma r q T i.dim zs (i.dim - 1) < |pathOf S sigma r q T i.dim zs (i.dim - 1) - K|) (s : Sys E Q (Dbl .binary64)) :
    MeanUpTo (started env c i s zss.length x).1 r T
      (zss.map fun zs => digitalValue (i.ty = .call) K (pathOf S sigma r q T i.dim zs (i.dim - 1)))
      (zss.map fun zs => 0) := by
  obtain ⟨x', hD⟩ := hd.draws
  have hcls : i.cls = .singlePath := by
    have := h.family
    rw [hf] at this
    cases hc : i.cls <;> simp_all [Family]
  have hop : o.payoff = .digital i.ty (.num K) := by
    have := h.option.2.2.2.2.1
    rw [hf] at this
    obtain ⟨k, k1, -, k2⟩ := this
    rw [k2, Param.dbl.inj (Option.some.inj (k1.symm.trans hK))]
  obtain ⟨as, w, a1, a2, a3, a4, a5, a6⟩ := last_prices env.engine.gen hd.dim.1 hd.dim.2 (ev := (Payoff.digital i.ty (.num (K : ℝ))).eval1) hD hd.moderate
    (f := fun zs => digitalValue (i.ty = .call) K (pathOf S sigma r q T i.dim zs (i.dim - 1))) (e := fun zs => 0)
    (fun zs hz p hp => digital_pays i.ty hp (hclear zs hz))
  obtain ⟨y, y1, y2⟩ := C66_singlePath (ModelKind.source env.engine.gen i.dim ⟨.num S, .num sigma, q.map fun x : ℝ => .num x, .num r⟩ .gbm) (getR := pure (.num r)) (pay := (Payoff.digital i.ty (.num (K : ℝ))).eval1) hd.small (s := x) (s' := x') rfl a1 a2 a4 (a3 ▸ hd.paths.1) (a3 ▸ hd.paths.2) (hd.sum_le env a5)
  rw [a3] at y1 y2
  refine meanUpTo_of (y := y) (ws := w.sum) ?_ (by simp) (by simpa using hd.paths.1) (by rw [List.length_map]; exact y2) a6
  rw [started_price env h s, hcls, hd.seen, hd.rate]
  show (MC.singlePath _ (pure (.num r)) o.payoff.eval1 o.T zss.length x).1 = _
  rw [hop, hd.optT env h, y1]

/-- **C88.** A double digital option, when no exact price at maturity is within rounding distance of a strike. -/
theorem C88_doubleDigital (h : AcceptedSession i c .gbm o) (hf : i.factory = .doubleDigital) (hd : DoubleRun env i S sigma r q T x zss) {L U : ℝ} (hL : lastSet i.params "K1" = some (.dbl (.num L)))
    (hU : lastSet i.params "K2" = some (.dbl (.num U)))
    (hclear : ∀ zs ∈ zss, 2 ^ (-49 : ℤ) * workOf sigma r q T i.dim zs * pathOf S sigma r q T i.dim zs (i.dim - 1) < |pathOf S sigma r q T i.dim zs (i.dim - 1) - L| ∧
      2 ^ (-49 : ℤ) * workOf sigma r q T i.dim zs * pathOf S sigma r q T i.dim zs (i.dim - 1) < |pathOf S sigma r q T i.dim zs (i.dim - 1) - U|) (s : Sys E Q (Dbl .binary64)) :
    MeanUpTo (started env c i s zss.length x).1 r T
      (zss.map fun zs => doubleDigitalValue L U (pathOf S sigma r q T i.dim zs (i.dim - 1)))
      (zss.map fun zs => 0) := by
  obtain ⟨x', hD⟩ := hd.draws
  have hcls : i.cls = .singlePath := by
    have := h.family
    rw [hf] at this
    cases hc : i.cls <;> simp_all [Family]
  have hop : o.payoff = .doubleDigital (.num L) (.num U) := by
    have := h.option.2.2.2.2.1
    rw [hf] at this
    obtain ⟨a, b, k1, k2, -, -, k3⟩ := this
    rw [k3, Param.dbl.inj (Option.some.inj (k1.symm.trans hL)), Param.dbl.inj (Option.some.inj (k2.symm.trans hU))]
  obtain ⟨as, w, a1, a2, a3, a4, a5, a6⟩ := last_prices env.engine.gen hd.dim.1 hd.dim.2 (ev := (Payoff.doubleDigital (.num (L : ℝ)) (.num (U : ℝ))).eval1) hD hd.moderate
    (f := fun zs => doubleDigitalValue L U (pathOf S sigma r q T i.dim zs (i.dim - 1))) (e := fun zs => 0)
    (fun zs hz p hp => doubleDigital_pays hp (hclear zs hz).1 (hclear zs hz).2)
  obtain ⟨y, y1, y2⟩ := C66_singlePath (ModelKind.source env.engine.gen i.dim ⟨.num S, .num sigma, q.map fun x : ℝ => .num x, .num r⟩ .gbm) (getR := pure (.num r)) (pay := (Payoff.doubleDigital (.num (L : ℝ)) (.num (U : ℝ))).eval1) hd.small (s := x) (s' := x') rfl a1 a2 a4 (a3 ▸ hd.paths.1) (a3 ▸ hd.paths.2) (hd.sum_le env a5)
  rw [a3] at y1 y2
  refine meanUpTo_of (y := y) (ws := w.sum) ?_ (by simp) (by simpa using hd.paths.1) (by rw [List.length_map]; exact y2) a6
  rw [started_price env h s, hcls, hd.seen, hd.rate]
  show (MC.singlePath _ (pure (.num r)) o.payoff.eval1 o.T zss.length x).1 = _
  rw [hop, hd.optT env h, y1]

end
/-! ## Examples: all product classes, calls and puts, any number of paths -/

namespace PathDependentExample
open PathErrorExample

/-- A session on the market of `PathErrorExample`. -/
noncomputable def session (f : OptClass) (cls : PricerClass) (ps : List (String × Param (Dbl .binary64))) (ty : PayoffType) : Session (Dbl .binary64) :=
  ⟨"AAPL", .num (100 : ℝ), .num (1 / 4 : ℝ), none, .num (1 / 16 : ℝ), [("ticker", .str "AAPL"), ("T", .dbl (.num (1 : ℝ)))] ++ ps, f, ty,
    fun _ => .ok .gbm, 2, cls, ⟨fun _ => .ok [], fun _ _ => .ok []⟩, 100000⟩

theorem accepted {f : OptClass} {cls : PricerClass} {ps : List (String × Param (Dbl .binary64))} {ty : PayoffType} {p : Payoff (Dbl .binary64)}
    {b : Option (Dbl .binary64 × BarrierDirection)} (hty : ty = .call ∨ ty = .put) (h1 : f ∈ Family cls)
    (h2 : PayoffOf f (session f cls ps ty).params ty p) (h3 : BarrierOf f (session f cls ps ty).params b)
    (h4 : lastSet (session f cls ps ty).params "ticker" = some (.str "AAPL")) (h5 : lastSet (session f cls ps ty).params "T" = some (.dbl (.num (1 : ℝ)))) :
    AcceptedSession (session f cls ps ty) (SessionExample.choices f) .gbm ⟨f, "AAPL", p, .num (1 : ℝ), b⟩ where
  data := by
    refine ⟨?_, ?_, by simp [session]⟩
    · rw [num_zero, session, Dbl.le_num_false]; exact_mod_cast (by norm_num : (0 : ℝ) < 100)
    · rw [num_zero, session, Dbl.lt_num_false]; exact_mod_cast (by norm_num : (0 : ℝ) ≤ 1 / 4)
  model := rfl
  callPut := hty
  option := ⟨rfl, h4, h5, by rw [num_zero, Dbl.lt_num_false]; exact_mod_cast zero_le_one, h2, h3⟩
  ticker := rfl
  family := h1
  payoffArgs := .refl _
  optionArgs := List.reverse_perm _

theorem run {f : OptClass} {cls : PricerClass} {ps : List (String × Param (Dbl .binary64))} {ty : PayoffType} {N : ℕ} (hN : 0 < N) (hN2 : N ≤ INT_MAX)
    (h5 : lastSet (session f cls ps ty).params "T" = some (.dbl (.num (1 : ℝ)))) :
    DoubleRun env (session f cls ps ty) 100 (1 / 4) (1 / 16) none 1 0 (List.replicate N [1 / 2, -1 / 4]) where
  price := rfl
  vol := rfl
  coupon := rfl
  rate := rfl
  maturity := h5
  dim := ⟨by norm_num [session], by norm_num [session, INT_MAX]⟩
  small := by norm_num [abs_of_pos]
  draws := ⟨_, draws N 0⟩
  paths := ⟨by simpa using hN, by simpa using hN2⟩
  moderate := fun zs hz => by rw [List.eq_of_mem_replicate hz]; exact moderate

/-- The example path stays between 20 and 300. -/
theorem bounds {j : ℕ} (hj : j < 2) : 20 ≤ pathOf 100 (1 / 4) (1 / 16) none 1 2 [1 / 2, -1 / 4] j ∧ pathOf 100 (1 / 4) (1 / 16) none 1 2 [1 / 2, -1 / 4] j ≤ 300 := by
  have q0 : 0 ≤ (Real.sqrt 2)⁻¹ := by positivity
  have q1 : Real.sqrt (1 / (2 : ℕ)) ≤ 1 := Real.sqrt_le_one.mpr (by norm_num)
  have key : ∀ x : ℝ, -1 ≤ x → x ≤ 1 → 20 ≤ 100 * Real.exp x ∧ 100 * Real.exp x ≤ 300 := by
    intro x h1 h2
    have a := Real.exp_one_lt_d9
    have b : Real.exp x ≤ Real.exp 1 := Real.exp_le_exp.mpr h2
    have c : Real.exp (-x) ≤ Real.exp 1 := Real.exp_le_exp.mpr (by linarith)
    have d : Real.exp x * Real.exp (-x) = 1 := by rw [← Real.exp_add]; simp
    have e := Real.exp_pos x
    constructor
    · nlinarith
    · linarith
  interval_cases j
  · refine key _ ?_ ?_ <;> norm_num [Finset.sum_range_succ] at q1 ⊢ <;> linarith
  · refine key _ ?_ ?_ <;> norm_num [Finset.sum_range_succ] at q1 ⊢ <;> linarith

theorem clear {B : ℝ} (hB : B ≤ 10 ∨ 500 ≤ B) {j : ℕ} (hj : j < 2) : 2 ^ (-49 : ℤ) * workOf (1 / 4) (1 / 16) none 1 2 [1 / 2, -1 / 4] * pathOf 100 (1 / 4) (1 / 16) none 1 2 [1 / 2, -1 / 4] j <
    |pathOf 100 (1 / 4) (1 / 16) none 1 2 [1 / 2, -1 / 4] j - B| := by
  obtain ⟨b1, b2⟩ := bounds hj
  have hw : (2 : ℝ) ^ (-49 : ℤ) * workOf (1 / 4) (1 / 16) none 1 2 [1 / 2, -1 / 4] ≤ 2 ^ (-9 : ℤ) := (mul_le_mul_of_nonneg_left moderate.work (by positivity)).trans (by norm_num)
  have h1 := mul_le_mul_of_nonneg_right hw (by linarith : 0 ≤ pathOf 100 (1 / 4) (1 / 16) none 1 2 [1 / 2, -1 / 4] j)
  refine h1.trans_lt ?_
  norm_num
  rcases hB with h | h
  · rw [abs_of_nonneg (by linarith)]
    linarith
  · rw [abs_of_nonpos (by linarith)]
    linarith

theorem strike_nonneg : Fl.lt (.num ((96 : ℝ) : EReal) : Dbl .binary64) (lit 0) = false := by
  rw [num_zero, Dbl.lt_num_false]; exact_mod_cast (by norm_num : (0 : ℝ) ≤ 96)

variable {ty : PayoffType} (hty : ty = .call ∨ ty = .put) {N : ℕ} (hN : 0 < N) (hN2 : N ≤ INT_MAX) (s : Sys ℕ Unit (Dbl .binary64))
include hty hN hN2

example : MeanUpTo (started env (SessionExample.choices .fixedLookback) (session .fixedLookback .fixedLookback [("K", .dbl (.num (96 : ℝ)))] ty) s N 0).1 (1 / 16) 1
    (List.replicate N (fixedLookback (ty = .call) 96 2 (pathOf 100 (1 / 4) (1 / 16) none 1 2 [1 / 2, -1 / 4])))
    (List.replicate N (valueError (2 ^ (-49 : ℤ) * workOf (1 / 4) (1 / 16) none 1 2 [1 / 2, -1 / 4]) 96
      (if ty = .call then highest 2 (pathOf 100 (1 / 4) (1 / 16) none 1 2 [1 / 2, -1 / 4]) else lowest 2 (pathOf 100 (1 / 4) (1 / 16) none 1 2 [1 / 2, -1 / 4])))) := by
  have := C88_fixedLookback env (accepted (f := .fixedLookback) (cls := .fixedLookback) (ps := [("K", .dbl (.num (96 : ℝ)))])
    (p := .vanilla ty (.num (96 : ℝ))) (b := none) hty (by simp [Family]) ⟨_, rfl, strike_nonneg, rfl⟩ rfl rfl rfl) rfl (run (f := .fixedLookback) (cls := .fixedLookback) (ps := [("K", .dbl (.num (96 : ℝ)))]) hN hN2 rfl) (K := 96) rfl (by norm_num [abs_of_pos]) s
  simp only [List.map_replicate, List.length_replicate] at this
  exact this

example : MeanUpTo (started env (SessionExample.choices .floatingLookback) (session .floatingLookback .floatingLookback [] ty) s N 0).1 (1 / 16) 1
    (List.replicate N (floatingLookback (ty = .call) 2 (pathOf 100 (1 / 4) (1 / 16) none 1 2 [1 / 2, -1 / 4])))
    (List.replicate N ((2 ^ (-49 : ℤ) * workOf (1 / 4) (1 / 16) none 1 2 [1 / 2, -1 / 4] + 2 ^ (-51 : ℤ)) * (pathOf 100 (1 / 4) (1 / 16) none 1 2 [1 / 2, -1 / 4] 1 +
      if ty = .call then lowest 2 (pathOf 100 (1 / 4) (1 / 16) none 1 2 [1 / 2, -1 / 4]) else highest 2 (pathOf 100 (1 / 4) (1 / 16) none 1 2 [1 / 2, -1 / 4])))) := by
  have := C88_floatingLookback env (accepted (f := .floatingLookback) (cls := .floatingLookback) (ps := [])
    (p := .floatingLookback ty) (b := none) hty (by simp [Family]) rfl rfl rfl rfl) rfl (run (f := .floatingLookback) (cls := .floatingLookback) (ps := []) hN hN2 rfl) s
  simp only [List.map_replicate, List.length_replicate] at this
  exact this

example : MeanUpTo (started env (SessionExample.choices .arithmeticAsian) (session .arithmeticAsian .arithmeticAsian [("K", .dbl (.num (96 : ℝ)))] ty) s N 0).1 (1 / 16) 1
    (List.replicate N (vanillaValue (ty = .call) 96 (meanOf 2 (pathOf 100 (1 / 4) (1 / 16) none 1 2 [1 / 2, -1 / 4]))))
    (List.replicate N (valueError (2 ^ (-48 : ℤ) * workOf (1 / 4) (1 / 16) none 1 2 [1 / 2, -1 / 4]) 96 (meanOf 2 (pathOf 100 (1 / 4) (1 / 16) none 1 2 [1 / 2, -1 / 4])))) := by
  have := C88_arithmeticAsian env (accepted (f := .arithmeticAsian) (cls := .arithmeticAsian) (ps := [("K", .dbl (.num (96 : ℝ)))])
    (p := .vanilla ty (.num (96 : ℝ))) (b := none) hty (by simp [Family]) ⟨_, rfl, strike_nonneg, rfl⟩ rfl rfl rfl) rfl (run (f := .arithmeticAsian) (cls := .arithmeticAsian) (ps := [("K", .dbl (.num (96 : ℝ)))]) hN hN2 rfl) (K := 96) rfl (by norm_num [abs_of_pos]) s
  simp only [List.map_replicate, List.length_replicate] at this
  exact this

example : MeanUpTo (started env (SessionExample.choices .geometricAsian) (session .geometricAsian .geometricAsian [("K", .dbl (.num (96 : ℝ)))] ty) s N 0).1 (1 / 16) 1
    (List.replicate N (vanillaValue (ty = .call) 96 (geomMeanOf 2 (pathOf 100 (1 / 4) (1 / 16) none 1 2 [1 / 2, -1 / 4]))))
    (List.replicate N (valueError (2 ^ (-40 : ℤ) * workOf (1 / 4) (1 / 16) none 1 2 [1 / 2, -1 / 4]) 96 (geomMeanOf 2 (pathOf 100 (1 / 4) (1 / 16) none 1 2 [1 / 2, -1 / 4])))) := by
  have := C88_geometricAsian env (accepted (f := .geometricAsian) (cls := .geometricAsian) (ps := [("K", .dbl (.num (96 : ℝ)))])
    (p := .vanilla ty (.num (96 : ℝ))) (b := none) hty (by simp [Family]) ⟨_, rfl, strike_nonneg, rfl⟩ rfl rfl rfl) rfl (run (f := .geometricAsian) (cls := .geometricAsian) (ps := [("K", .dbl (.num (96 : ℝ)))]) hN hN2 rfl) (K := 96) rfl (by norm_num [abs_of_pos]) s
  simp only [List.map_replicate, List.length_replicate] at this
  exact this

/-- A down-and-in option whose barrier 10 is not reached, and an up-and-out option whose barrier 10 is passed. -/
example : MeanUpTo (started env (SessionExample.choices .knockIn)
      (session .knockIn .knockIn [("K", .dbl (.num (96 : ℝ))), ("B", .dbl (.num (10 : ℝ))), ("direction", .dir .down)] ty) s N 0).1 (1 / 16) 1
    (List.replicate N (knockInValue (ty = .call) 96 10 .down 2 (pathOf 100 (1 / 4) (1 / 16) none 1 2 [1 / 2, -1 / 4])))
    (List.replicate N (valueError (2 ^ (-49 : ℤ) * workOf (1 / 4) (1 / 16) none 1 2 [1 / 2, -1 / 4]) 96 (pathOf 100 (1 / 4) (1 / 16) none 1 2 [1 / 2, -1 / 4] 1))) := by
  have := C88_knockIn env (accepted (f := .knockIn) (cls := .knockIn) (ps := [("K", .dbl (.num (96 : ℝ))), ("B", .dbl (.num (10 : ℝ))), ("direction", .dir .down)])
    (p := .vanilla ty (.num (96 : ℝ))) (b := some (.num (10 : ℝ), .down)) hty (by simp [Family]) ⟨_, rfl, strike_nonneg, rfl⟩ ⟨_, _, rfl, rfl, rfl⟩ rfl rfl) rfl (run (f := .knockIn) (cls := .knockIn) (ps := [("K", .dbl (.num (96 : ℝ))), ("B", .dbl (.num (10 : ℝ))), ("direction", .dir .down)]) hN hN2 rfl) (K := 96) rfl (by norm_num [abs_of_pos])
    (B := 10) (d := .down) rfl rfl (fun zs hz => by rw [List.eq_of_mem_replicate hz]; exact fun j hj => clear (.inl le_rfl) hj) s
  simp only [List.map_replicate, List.length_replicate] at this
  exact this

example : MeanUpTo (started env (SessionExample.choices .knockOut)
      (session .knockOut .knockOut [("K", .dbl (.num (96 : ℝ))), ("B", .dbl (.num (10 : ℝ))), ("direction", .dir .up)] ty) s N 0).1 (1 / 16) 1
    (List.replicate N (knockOutValue (ty = .call) 96 10 .up 2 (pathOf 100 (1 / 4) (1 / 16) none 1 2 [1 / 2, -1 / 4])))
    (List.replicate N (valueError (2 ^ (-49 : ℤ) * workOf (1 / 4) (1 / 16) none 1 2 [1 / 2, -1 / 4]) 96 (pathOf 100 (1 / 4) (1 / 16) none 1 2 [1 / 2, -1 / 4] 1))) := by
  have := C88_knockOut env (accepted (f := .knockOut) (cls := .knockOut) (ps := [("K", .dbl (.num (96 : ℝ))), ("B", .dbl (.num (10 : ℝ))), ("direction", .dir .up)])
    (p := .vanilla ty (.num (96 : ℝ))) (b := some (.num (10 : ℝ), .up)) hty (by simp [Family]) ⟨_, rfl, strike_nonneg, rfl⟩ ⟨_, _, rfl, rfl, rfl⟩ rfl rfl) rfl (run (f := .knockOut) (cls := .knockOut) (ps := [("K", .dbl (.num (96 : ℝ))), ("B", .dbl (.num (10 : ℝ))), ("direction", .dir .up)]) hN hN2 rfl) (K := 96) rfl (by norm_num [abs_of_pos])
    (B := 10) (d := .up) rfl rfl (fun zs hz => by rw [List.eq_of_mem_replicate hz]; exact fun j hj => clear (.inl le_rfl) hj) s
  simp only [List.map_replicate, List.length_replicate] at this
  exact this

example : MeanUpTo (started env (SessionExample.choices .digital) (session .digital .singlePath [("K", .dbl (.num (500 : ℝ)))] ty) s N 0).1 (1 / 16) 1
    (List.replicate N (digitalValue (ty = .call) 500 (pathOf 100 (1 / 4) (1 / 16) none 1 2 [1 / 2, -1 / 4] 1))) (List.replicate N 0) := by
  have := C88_digital env (accepted (f := .digital) (cls := .singlePath) (ps := [("K", .dbl (.num (500 : ℝ)))])
    (p := .digital ty (.num (500 : ℝ))) (b := none) hty (by simp [Family]) ⟨_, rfl, by rw [num_zero, Dbl.lt_num_false]; exact_mod_cast (by norm_num : (0 : ℝ) ≤ 500), rfl⟩ rfl rfl rfl) rfl
    (run (f := .digital) (cls := .singlePath) (ps := [("K", .dbl (.num (500 : ℝ)))]) hN hN2 rfl) (K := 500) rfl (fun zs hz => by rw [List.eq_of_mem_replicate hz]; exact clear (.inr le_rfl) (by norm_num [session])) s
  simp only [List.map_replicate, List.length_replicate] at this
  exact this

example : MeanUpTo (started env (SessionExample.choices .doubleDigital) (session .doubleDigital .singlePath [("K1", .dbl (.num (10 : ℝ))), ("K2", .dbl (.num (500 : ℝ)))] ty) s N 0).1
    (1 / 16) 1 (List.replicate N (doubleDigitalValue 10 500 (pathOf 100 (1 / 4) (1 / 16) none 1 2 [1 / 2, -1 / 4] 1))) (List.replicate N 0) := by
  have := C88_doubleDigital env (accepted (f := .doubleDigital) (cls := .singlePath) (ps := [("K1", .dbl (.num (10 : ℝ))), ("K2", .dbl (.num (500 : ℝ)))])
    (p := .doubleDigital (.num (10 : ℝ)) (.num (500 : ℝ))) (b := none) hty (by simp [Family]) ⟨_, _, rfl, rfl, by rw [num_zero, Dbl.lt_num_false]; exact_mod_cast (by norm_num : (0 : ℝ) ≤ 10),
      by rw [num_zero, Dbl.lt_num_false]; exact_mod_cast (by norm_num : (0 : ℝ) ≤ 500), rfl⟩ rfl rfl rfl) rfl
    (run (f := .doubleDigital) (cls := .singlePath) (ps := [("K1", .dbl (.num (10 : ℝ))), ("K2", .dbl (.num (500 : ℝ)))]) hN hN2 rfl) (L := 10) (U := 500) rfl rfl
    (fun zs hz => by rw [List.eq_of_mem_replicate hz]; exact ⟨clear (.inl le_rfl) (by norm_num [session]), clear (.inr le_rfl) (by norm_num [session])⟩) s
  simp only [List.map_replicate, List.length_replicate] at this
  exact this

end PathDependentExample

end Verif
