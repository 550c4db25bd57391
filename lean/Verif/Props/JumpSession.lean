import Verif.Spec.JumpSessionSpec
import Verif.Props.PathDependentError
import Verif.Props.JumpPathError

/-!
# Property C101: session prices on models with jumps in double precision
-/

set_option exponentiation.threshold 3000

namespace Verif
open Spec

/-! ## Any model whose paths are accurate -/

section
variable {G α : Type} {P : G → α → G → Prop}

/-- All paths, and what they pay. -/
theorem drawn_pays {β : Type} {sim : Eff G β} {ev : β → Res (Dbl .binary64)} {f e : α → ℝ} {s s' : G} {ls : List α} (hD : PathsDrawn P s ls s')
    (hP : ∀ a ∈ ls, ∀ s s₁, P s a s₁ → ∃ (b : β) (w : ℝ), sim s = (.ok b, s₁) ∧ ev b = .ok (.num w) ∧ 0 ≤ w ∧ w ≤ 2 ^ (510 : ℤ) ∧ |w - f a| ≤ e a) :
    ∃ (as : List β) (w : List ℝ), Draws sim s as s' ∧ Pays ev as (w.map fun x : ℝ => .num x) ∧ as.length = ls.length ∧ (∀ x ∈ w, 0 ≤ x) ∧
      w.sum ≤ ls.length * 2 ^ (510 : ℤ) ∧ |w.sum - (ls.map f).sum| ≤ (ls.map e).sum := by
  induction hD with
  | nil s => exact ⟨[], [], .nil s, .nil, rfl, by simp, by simp, by simp⟩
  | @cons s s₁ s₂ a l h t ih =>
    obtain ⟨as, w, h1, h2, h3, h4, h5, h6⟩ := ih fun a ha => hP a (by simp [ha])
    obtain ⟨b, x, p1, x1, x2, x3, x4⟩ := hP a (by simp) _ _ h
    refine ⟨b :: as, x :: w, .cons p1 h1, .cons x1 h2, by simp [h3], by simpa [x2] using h4, ?_, ?_⟩
    · simp only [List.sum_cons, List.length_cons, Nat.cast_add, Nat.cast_one]
      generalize (2 : ℝ) ^ (510 : ℤ) = t' at *
      linarith
    · simp only [List.sum_cons, List.map_cons]
      have := abs_add_le (x - f a) (w.sum - (l.map f).sum)
      rw [sub_add_sub_comm] at this
      exact this.trans (add_le_add x4 h6)

/-- The last price of a path. -/
theorem maturity_of_prices {g : Gen G (Dbl .binary64)} {n : ℕ} {v : View (Dbl .binary64)} {T : Dbl .binary64} {k : ModelKind (Dbl .binary64)} {s s₁ : G} {p : ℕ → ℝ}
    (hn : 0 < n) (h : Sim.prices g n v T k s = (.ok (((List.range n).map p).map fun x : ℝ => .num x), s₁)) :
    Sim.maturity g n v T k s = (.ok (.num (p (n - 1) : ℝ)), s₁) := by
  unfold Sim.maturity
  rw [Eff.bind_of_ok h]
  have : vback (((List.range n).map p).map fun x : ℝ => (.num x : Dbl .binary64)) = .ok (.num (p (n - 1) : ℝ)) := by
    unfold vback
    rw [List.getLast?_map, List.getLast?_map, List.getLast?_range, if_neg (by omega)]
    rfl
  rw [this]
  rfl

end

section
variable {E Q α : Type} (env : Env E Q (Dbl .binary64)) {i : Session (Dbl .binary64)} {c : Session.Choices} {o : OptObj (Dbl .binary64)} {k : ModelKind (Dbl .binary64)}
  {S sigma r T : ℝ} {q : Option ℝ} {N : ℕ}

theorem Spec.MarketRun.seen (hd : MarketRun i S sigma r q T N) : ModelObj.seen (stockOf i) i.r = ⟨.num S, .num sigma, q.map fun x : ℝ => .num x, .num r⟩ := by
  unfold ModelObj.seen stockOf
  rw [hd.price, hd.vol, hd.coupon, hd.rate]

theorem Spec.MarketRun.optT (hd : MarketRun i S sigma r q T N) (h : AcceptedSession i c k o) : o.T = .num T :=
  (Param.dbl.inj (Option.some.inj (hd.maturity.symm.trans h.option.2.2.1))).symm

theorem Spec.MarketRun.sum_le (hd : MarketRun i S sigma r q T N) {ws : ℝ} (h : ws ≤ N * 2 ^ (510 : ℤ)) : ws ≤ 2 ^ (1000 : ℤ) := by
  have b1 : (N : ℝ) ≤ INT_MAX := by exact_mod_cast hd.paths.2
  refine h.trans ((mul_le_mul_of_nonneg_right b1 (by positivity)).trans ?_)
  norm_num [INT_MAX]

theorem european_cls {cls : PricerClass} (h : OptClass.european ∈ Family cls) : cls = .singlePath := by
  revert h
  cases cls <;> simp [Family]

theorem digital_cls {cls : PricerClass} (h : OptClass.digital ∈ Family cls) : cls = .singlePath := by
  revert h
  cases cls <;> simp [Family]

theorem doubleDigital_cls {cls : PricerClass} (h : OptClass.doubleDigital ∈ Family cls) : cls = .singlePath := by
  revert h
  cases cls <;> simp [Family]

theorem fixedLookback_cls {cls : PricerClass} (h : OptClass.fixedLookback ∈ Family cls) : cls = .fixedLookback := by
  revert h
  cases cls <;> simp [Family]

theorem floatingLookback_cls {cls : PricerClass} (h : OptClass.floatingLookback ∈ Family cls) : cls = .floatingLookback := by
  revert h
  cases cls <;> simp [Family]

theorem arithmeticAsian_cls {cls : PricerClass} (h : OptClass.arithmeticAsian ∈ Family cls) : cls = .arithmeticAsian := by
  revert h
  cases cls <;> simp [Family]

theorem geometricAsian_cls {cls : PricerClass} (h : OptClass.geometricAsian ∈ Family cls) : cls = .geometricAsian := by
  revert h
  cases cls <;> simp [Family]

theorem knockIn_cls {cls : PricerClass} (h : OptClass.knockIn ∈ Family cls) : cls = .knockIn := by
  revert h
  cases cls <;> simp [Family]

theorem knockOut_cls {cls : PricerClass} (h : OptClass.knockOut ∈ Family cls) : cls = .knockOut := by
  revert h
  cases cls <;> simp [Family]

set_option maxHeartbeats 1000000 in
/-- **C101.** Any model and any option: if every simulated path is close to an exact path for the same draws, the price returned is the discounted mean of what
the option pays on the exact paths, up to the stated errors. -/
theorem C101_session {P : E → α → E → Prop} {X : α → ℕ → ℝ} {W : α → ℝ} {x x' : E} {ls : List α} (h : AcceptedSession i c k o)
    (hd : MarketRun i S sigma r q T ls.length) {t : Instrument} (ht : t.Asked i) (hD : PathsDrawn P x ls x')
    (hP : ∀ a ∈ ls, ∀ s s₁, P s a s₁ → ∃ p : ℕ → ℝ,
      Sim.prices env.engine.gen i.dim ⟨.num S, .num sigma, q.map fun x : ℝ => .num x, .num r⟩ (.num T) k s = (.ok (((List.range i.dim).map p).map fun x : ℝ => .num x), s₁) ∧
      ∀ j < i.dim, 0 < p j ∧ |p j - X a j| ≤ 2 ^ (-49 : ℤ) * W a * X a j)
    (hX : ∀ a ∈ ls, ∀ j < i.dim, Real.exp (-300) ≤ X a j ∧ X a j ≤ Real.exp 300) (hW : ∀ a ∈ ls, i.dim ≤ W a ∧ W a ≤ 2 ^ 40)
    (hc : ∀ a ∈ ls, t.Clear (W a) i.dim (X a)) (s : Sys E Q (Dbl .binary64)) :
    MeanUpTo (started env c i s ls.length x).1 r T (ls.map fun a => t.value (i.ty = .call) i.dim (X a)) (ls.map fun a => t.error (i.ty = .call) (W a) i.dim (X a)) := by
  have hW0 : ∀ a ∈ ls, 0 ≤ 2 ^ (-49 : ℤ) * W a ∧ 2 ^ (-49 : ℤ) * W a ≤ 1 := fun a ha =>
    ⟨mul_nonneg (by positivity) ((Nat.cast_nonneg _).trans (hW a ha).1), (mul_le_mul_of_nonneg_left (hW a ha).2 (by positivity)).trans (by norm_num)⟩
  have hlast : i.dim - 1 < i.dim := by have := hd.dim.1; omega
  have whole : ∀ {ev : List (Dbl .binary64) → Res (Dbl .binary64)} {f e : α → ℝ},
      (∀ a ∈ ls, ∀ p : ℕ → ℝ, CloseBy (2 ^ (-49 : ℤ) * W a) i.dim p (X a) → ∃ w : ℝ, ev (((List.range i.dim).map p).map fun x : ℝ => .num x) = .ok (.num w) ∧
        0 ≤ w ∧ w ≤ 2 ^ (510 : ℤ) ∧ |w - f a| ≤ e a) →
      ∃ (as : List (List (Dbl .binary64))) (w : List ℝ), Draws (Sim.prices env.engine.gen i.dim ⟨.num S, .num sigma, q.map fun x : ℝ => .num x, .num r⟩ (.num T) k) x as x' ∧
        Pays ev as (w.map fun x : ℝ => .num x) ∧ as.length = ls.length ∧ (∀ x ∈ w, 0 ≤ x) ∧ w.sum ≤ ls.length * 2 ^ (510 : ℤ) ∧ |w.sum - (ls.map f).sum| ≤ (ls.map e).sum :=
    fun {ev f e} hev => drawn_pays hD fun a ha s s₁ hs => by
      obtain ⟨p, p1, p2⟩ := hP a ha s s₁ hs
      obtain ⟨w, w1⟩ := hev a ha p p2
      exact ⟨_, w, p1, w1⟩
  have last : ∀ {ev : Dbl .binary64 → Res (Dbl .binary64)} {f e : α → ℝ},
      (∀ a ∈ ls, ∀ p : ℝ, |p - X a (i.dim - 1)| ≤ 2 ^ (-49 : ℤ) * W a * X a (i.dim - 1) → ∃ w : ℝ, ev (.num p) = .ok (.num w) ∧
        0 ≤ w ∧ w ≤ 2 ^ (510 : ℤ) ∧ |w - f a| ≤ e a) →
      ∃ (as : List (Dbl .binary64)) (w : List ℝ), Draws (Sim.maturity env.engine.gen i.dim ⟨.num S, .num sigma, q.map fun x : ℝ => .num x, .num r⟩ (.num T) k) x as x' ∧
        Pays ev as (w.map fun x : ℝ => .num x) ∧ as.length = ls.length ∧ (∀ x ∈ w, 0 ≤ x) ∧ w.sum ≤ ls.length * 2 ^ (510 : ℤ) ∧ |w.sum - (ls.map f).sum| ≤ (ls.map e).sum :=
    fun {ev f e} hev => drawn_pays hD fun a ha s s₁ hs => by
      obtain ⟨p, p1, p2⟩ := hP a ha s s₁ hs
      obtain ⟨w, w1⟩ := hev a ha (p (i.dim - 1)) (p2 _ hlast).2
      exact ⟨_, w, maturity_of_prices hd.dim.1 p1, w1⟩
  cases t with
  | european K =>
    obtain ⟨hf, hK, hK2⟩ := ht
    have hcls : i.cls = .singlePath := european_cls (hf ▸ h.family)
    have hop : o.payoff = .vanilla i.ty (.num K) := strike_payoff (by rw [hf]; simp) h.option.2.2.2.2.1 hK
    obtain ⟨as, w, a1, a2, a3, a4, a5, a6⟩ := last (ev := (Payoff.vanilla i.ty (.num (K : ℝ))).eval1)
      (f := fun a => Instrument.value (i.ty = .call) i.dim (X a) (.european K)) (e := fun a => Instrument.error (i.ty = .call) (W a) i.dim (X a) (.european K))
      (fun a ha p hp => vanilla_pays i.ty (hX a ha _ hlast).1 (hX a ha _ hlast).2 hK2 hp (hW0 a ha).2)
    obtain ⟨y, y1, y2⟩ := C66_singlePath (ModelKind.source env.engine.gen i.dim ⟨.num S, .num sigma, q.map fun x : ℝ => .num x, .num r⟩ k) (getR := pure (.num r)) (pay := (Payoff.vanilla i.ty (.num (K : ℝ))).eval1) hd.small (s := x) (s' := x') rfl a1 a2 a4 (a3 ▸ hd.paths.1) (a3 ▸ hd.paths.2) (hd.sum_le a5)
    rw [a3] at y1 y2
    refine meanUpTo_of (y := y) (ws := w.sum) ?_ (by simp) (by simpa using hd.paths.1) (by rw [List.length_map]; exact y2) a6
    rw [started_price env h s, hcls, hd.seen, hd.rate]
    show (MC.singlePath _ (pure (.num r)) o.payoff.eval1 o.T ls.length x).1 = _
    rw [hop, hd.optT h, y1]
  | digital K =>
    obtain ⟨hf, hK⟩ := ht
    have hcls : i.cls = .singlePath := digital_cls (hf ▸ h.family)
    have hop : o.payoff = .digital i.ty (.num K) := by
      have := h.option.2.2.2.2.1
      rw [hf] at this
      obtain ⟨k, k1, -, k2⟩ := this
      rw [k2, Param.dbl.inj (Option.some.inj (k1.symm.trans hK))]
    obtain ⟨as, w, a1, a2, a3, a4, a5, a6⟩ := last (ev := (Payoff.digital i.ty (.num (K : ℝ))).eval1)
      (f := fun a => Instrument.value (i.ty = .call) i.dim (X a) (.digital K)) (e := fun a => Instrument.error (i.ty = .call) (W a) i.dim (X a) (.digital K))
      (fun a ha p hp => digital_pays i.ty hp (hc a ha))
    obtain ⟨y, y1, y2⟩ := C66_singlePath (ModelKind.source env.engine.gen i.dim ⟨.num S, .num sigma, q.map fun x : ℝ => .num x, .num r⟩ k) (getR := pure (.num r)) (pay := (Payoff.digital i.ty (.num (K : ℝ))).eval1) hd.small (s := x) (s' := x') rfl a1 a2 a4 (a3 ▸ hd.paths.1) (a3 ▸ hd.paths.2) (hd.sum_le a5)
    rw [a3] at y1 y2
    refine meanUpTo_of (y := y) (ws := w.sum) ?_ (by simp) (by simpa using hd.paths.1) (by rw [List.length_map]; exact y2) a6
    rw [started_price env h s, hcls, hd.seen, hd.rate]
    show (MC.singlePath _ (pure (.num r)) o.payoff.eval1 o.T ls.length x).1 = _
    rw [hop, hd.optT h, y1]
  | doubleDigital L U =>
    obtain ⟨hf, hL, hU⟩ := ht
    have hcls : i.cls = .singlePath := doubleDigital_cls (hf ▸ h.family)
    have hop : o.payoff = .doubleDigital (.num L) (.num U) := by
      have := h.option.2.2.2.2.1
      rw [hf] at this
      obtain ⟨a, b, k1, k2, -, -, k3⟩ := this
      rw [k3, Param.dbl.inj (Option.some.inj (k1.symm.trans hL)), Param.dbl.inj (Option.some.inj (k2.symm.trans hU))]
    obtain ⟨as, w, a1, a2, a3, a4, a5, a6⟩ := last (ev := (Payoff.doubleDigital (.num (L : ℝ)) (.num (U : ℝ))).eval1)
      (f := fun a => Instrument.value (i.ty = .call) i.dim (X a) (.doubleDigital L U)) (e := fun a => Instrument.error (i.ty = .call) (W a) i.dim (X a) (.doubleDigital L U))
      (fun a ha p hp => doubleDigital_pays hp (hc a ha).1 (hc a ha).2)
    obtain ⟨y, y1, y2⟩ := C66_singlePath (ModelKind.source env.engine.gen i.dim ⟨.num S, .num sigma, q.map fun x : ℝ => .num x, .num r⟩ k) (getR := pure (.num r)) (pay := (Payoff.doubleDigital (.num (L : ℝ)) (.num (U : ℝ))).eval1) hd.small (s := x) (s' := x') rfl a1 a2 a4 (a3 ▸ hd.paths.1) (a3 ▸ hd.paths.2) (hd.sum_le a5)
    rw [a3] at y1 y2
    refine meanUpTo_of (y := y) (ws := w.sum) ?_ (by simp) (by simpa using hd.paths.1) (by rw [List.length_map]; exact y2) a6
    rw [started_price env h s, hcls, hd.seen, hd.rate]
    show (MC.singlePath _ (pure (.num r)) o.payoff.eval1 o.T ls.length x).1 = _
    rw [hop, hd.optT h, y1]
  | fixedLookback K =>
    obtain ⟨hf, hK, hK2⟩ := ht
    have hcls : i.cls = .fixedLookback := fixedLookback_cls (hf ▸ h.family)
    have hop : o.payoff = .vanilla i.ty (.num K) := strike_payoff (by rw [hf]; simp) h.option.2.2.2.2.1 hK
    obtain ⟨as, w, a1, a2, a3, a4, a5, a6⟩ := whole (ev := MC.lookbackPath .fixed (.vanilla i.ty (.num (K : ℝ))) i.dim)
      (f := fun a => Instrument.value (i.ty = .call) i.dim (X a) (.fixedLookback K)) (e := fun a => Instrument.error (i.ty = .call) (W a) i.dim (X a) (.fixedLookback K))
      (fun a ha p hp => fixed_pays hd.dim.1 hd.dim.2 i.ty hK2 (hW0 a ha).1 (hW0 a ha).2 (hX a ha) hp)
    obtain ⟨y, y1, y2⟩ := C66_lookback .fixed (ModelKind.source env.engine.gen i.dim ⟨.num S, .num sigma, q.map fun x : ℝ => .num x, .num r⟩ k) (getR := pure (.num r)) (.vanilla i.ty (.num (K : ℝ))) hd.small (s := x) (s' := x') rfl a1 a2 a4 (a3 ▸ hd.paths.1) (a3 ▸ hd.paths.2) (hd.sum_le a5)
    rw [a3] at y1 y2
    refine meanUpTo_of (y := y) (ws := w.sum) ?_ (by simp) (by simpa using hd.paths.1) (by rw [List.length_map]; exact y2) a6
    rw [started_price env h s, hcls, hd.seen, hd.rate]
    show (MC.lookback .fixed _ (pure (.num r)) o.payoff o.T ls.length x).1 = _
    rw [hop, hd.optT h, y1]
  | floatingLookback  =>
    have hf : i.factory = .floatingLookback := ht
    have hcls : i.cls = .floatingLookback := floatingLookback_cls (hf ▸ h.family)
    have hop : o.payoff = .floatingLookback i.ty := by
      have := h.option.2.2.2.2.1
      rwa [hf] at this
    obtain ⟨as, w, a1, a2, a3, a4, a5, a6⟩ := whole (ev := MC.lookbackPath .floating (.floatingLookback i.ty) i.dim)
      (f := fun a => Instrument.value (i.ty = .call) i.dim (X a) (.floatingLookback )) (e := fun a => Instrument.error (i.ty = .call) (W a) i.dim (X a) (.floatingLookback ))
      (fun a ha p hp => floating_pays hd.dim.1 hd.dim.2 i.ty (hW0 a ha).1 (hW0 a ha).2 (hX a ha) hp)
    obtain ⟨y, y1, y2⟩ := C66_lookback .floating (ModelKind.source env.engine.gen i.dim ⟨.num S, .num sigma, q.map fun x : ℝ => .num x, .num r⟩ k) (getR := pure (.num r)) (.floatingLookback i.ty) hd.small (s := x) (s' := x') rfl a1 a2 a4 (a3 ▸ hd.paths.1) (a3 ▸ hd.paths.2) (hd.sum_le a5)
    rw [a3] at y1 y2
    refine meanUpTo_of (y := y) (ws := w.sum) ?_ (by simp) (by simpa using hd.paths.1) (by rw [List.length_map]; exact y2) a6
    rw [started_price env h s, hcls, hd.seen, hd.rate]
    show (MC.lookback .floating _ (pure (.num r)) o.payoff o.T ls.length x).1 = _
    rw [hop, hd.optT h, y1]
  | arithmeticAsian K =>
    obtain ⟨hf, hK, hK2⟩ := ht
    have hcls : i.cls = .arithmeticAsian := arithmeticAsian_cls (hf ▸ h.family)
    have hop : o.payoff = .vanilla i.ty (.num K) := strike_payoff (by rw [hf]; simp) h.option.2.2.2.2.1 hK
    obtain ⟨as, w, a1, a2, a3, a4, a5, a6⟩ := whole (ev := MC.asianPath .arithmetic (Payoff.vanilla i.ty (.num (K : ℝ))).eval1 i.dim)
      (f := fun a => Instrument.value (i.ty = .call) i.dim (X a) (.arithmeticAsian K)) (e := fun a => Instrument.error (i.ty = .call) (W a) i.dim (X a) (.arithmeticAsian K))
      (fun a ha p hp => arithmetic_pays hd.dim.1 hd.dim.2 i.ty hK2 (hW a ha).1 (hW a ha).2 (hX a ha) hp)
    obtain ⟨y, y1, y2⟩ := C66_asian .arithmetic (ModelKind.source env.engine.gen i.dim ⟨.num S, .num sigma, q.map fun x : ℝ => .num x, .num r⟩ k) (getR := pure (.num r)) (pay := (Payoff.vanilla i.ty (.num (K : ℝ))).eval1) hd.small (s := x) (s' := x') rfl a1 a2 a4 (a3 ▸ hd.paths.1) (a3 ▸ hd.paths.2.trans (by norm_num [INT_MAX])) (hd.sum_le a5)
    rw [a3] at y1 y2
    refine meanUpTo_of (y := y) (ws := w.sum) ?_ (by simp) (by simpa using hd.paths.1) (by rw [List.length_map]; exact y2) a6
    rw [started_price env h s, hcls, hd.seen, hd.rate]
    show (MC.asian .arithmetic _ (pure (.num r)) o.payoff.eval1 o.T ls.length x).1 = _
    rw [hop, hd.optT h, y1]
  | geometricAsian K =>
    obtain ⟨hf, hK, hK2⟩ := ht
    have hcls : i.cls = .geometricAsian := geometricAsian_cls (hf ▸ h.family)
    have hop : o.payoff = .vanilla i.ty (.num K) := strike_payoff (by rw [hf]; simp) h.option.2.2.2.2.1 hK
    obtain ⟨as, w, a1, a2, a3, a4, a5, a6⟩ := whole (ev := MC.asianPath .geometric (Payoff.vanilla i.ty (.num (K : ℝ))).eval1 i.dim)
      (f := fun a => Instrument.value (i.ty = .call) i.dim (X a) (.geometricAsian K)) (e := fun a => Instrument.error (i.ty = .call) (W a) i.dim (X a) (.geometricAsian K))
      (fun a ha p hp => geometric_pays hd.dim.1 hd.dim.2 i.ty hK2 (hW a ha).1 (hW a ha).2 (hX a ha) hp)
    obtain ⟨y, y1, y2⟩ := C66_asian .geometric (ModelKind.source env.engine.gen i.dim ⟨.num S, .num sigma, q.map fun x : ℝ => .num x, .num r⟩ k) (getR := pure (.num r)) (pay := (Payoff.vanilla i.ty (.num (K : ℝ))).eval1) hd.small (s := x) (s' := x') rfl a1 a2 a4 (a3 ▸ hd.paths.1) (a3 ▸ hd.paths.2.trans (by norm_num [INT_MAX])) (hd.sum_le a5)
    rw [a3] at y1 y2
    refine meanUpTo_of (y := y) (ws := w.sum) ?_ (by simp) (by simpa using hd.paths.1) (by rw [List.length_map]; exact y2) a6
    rw [started_price env h s, hcls, hd.seen, hd.rate]
    show (MC.asian .geometric _ (pure (.num r)) o.payoff.eval1 o.T ls.length x).1 = _
    rw [hop, hd.optT h, y1]
  | knockIn K B d =>
    obtain ⟨hf, hK, hK2, hB, hdir⟩ := ht
    have hcls : i.cls = .knockIn := knockIn_cls (hf ▸ h.family)
    have hop : o.payoff = .vanilla i.ty (.num K) := strike_payoff (by rw [hf]; simp) h.option.2.2.2.2.1 hK
    have hact : Pricer.isActive o = OptionModel.knockInIsActive (.num B) d := by
      obtain ⟨o1, -, -, -, -, o6⟩ := h.option
      rw [hf] at o1 o6
      obtain ⟨B', d', b1, b2, b3⟩ := o6
      funext y
      unfold Pricer.isActive
      rw [b3, o1, Param.dbl.inj (Option.some.inj (b1.symm.trans hB)), Param.dir.inj (Option.some.inj (b2.symm.trans hdir))]
    obtain ⟨as, w, a1, a2, a3, a4, a5, a6⟩ := whole (ev := MC.barrierPath .knockIn (OptionModel.knockInIsActive (.num B) d) (Payoff.vanilla i.ty (.num (K : ℝ))).eval1 i.dim)
      (f := fun a => Instrument.value (i.ty = .call) i.dim (X a) (.knockIn K B d)) (e := fun a => Instrument.error (i.ty = .call) (W a) i.dim (X a) (.knockIn K B d))
      (fun a ha p hp => knockIn_pays hd.dim.1 hd.dim.2 d i.ty hK2 (hW0 a ha).2 (hX a ha) hp (hc a ha))
    obtain ⟨y, y1, y2⟩ := C66_barrier .knockIn (ModelKind.source env.engine.gen i.dim ⟨.num S, .num sigma, q.map fun x : ℝ => .num x, .num r⟩ k) (getR := pure (.num r)) (OptionModel.knockInIsActive (.num B) d) (pay := (Payoff.vanilla i.ty (.num (K : ℝ))).eval1) hd.small (s := x) (s' := x') rfl a1 a2 a4 (a3 ▸ hd.paths.1) (a3 ▸ hd.paths.2) (hd.sum_le a5)
    rw [a3] at y1 y2
    refine meanUpTo_of (y := y) (ws := w.sum) ?_ (by simp) (by simpa using hd.paths.1) (by rw [List.length_map]; exact y2) a6
    rw [started_price env h s, hcls, hd.seen, hd.rate]
    show (MC.barrier .knockIn _ (pure (.num r)) (Pricer.isActive o) o.payoff.eval1 o.T ls.length x).1 = _
    rw [hop, hact, hd.optT h, y1]
  | knockOut K B d =>
    obtain ⟨hf, hK, hK2, hB, hdir⟩ := ht
    have hcls : i.cls = .knockOut := knockOut_cls (hf ▸ h.family)
    have hop : o.payoff = .vanilla i.ty (.num K) := strike_payoff (by rw [hf]; simp) h.option.2.2.2.2.1 hK
    have hact : Pricer.isActive o = OptionModel.knockOutIsActive (.num B) d := by
      obtain ⟨o1, -, -, -, -, o6⟩ := h.option
      rw [hf] at o1 o6
      obtain ⟨B', d', b1, b2, b3⟩ := o6
      funext y
      unfold Pricer.isActive
      rw [b3, o1, Param.dbl.inj (Option.some.inj (b1.symm.trans hB)), Param.dir.inj (Option.some.inj (b2.symm.trans hdir))]
    obtain ⟨as, w, a1, a2, a3, a4, a5, a6⟩ := whole (ev := MC.barrierPath .knockOut (OptionModel.knockOutIsActive (.num B) d) (Payoff.vanilla i.ty (.num (K : ℝ))).eval1 i.dim)
      (f := fun a => Instrument.value (i.ty = .call) i.dim (X a) (.knockOut K B d)) (e := fun a => Instrument.error (i.ty = .call) (W a) i.dim (X a) (.knockOut K B d))
      (fun a ha p hp => knockOut_pays hd.dim.1 hd.dim.2 d i.ty hK2 (hW0 a ha).2 (hX a ha) hp (hc a ha))
    obtain ⟨y, y1, y2⟩ := C66_barrier .knockOut (ModelKind.source env.engine.gen i.dim ⟨.num S, .num sigma, q.map fun x : ℝ => .num x, .num r⟩ k) (getR := pure (.num r)) (OptionModel.knockOutIsActive (.num B) d) (pay := (Payoff.vanilla i.ty (.num (K : ℝ))).eval1) hd.small (s := x) (s' := x') rfl a1 a2 a4 (a3 ▸ hd.paths.1) (a3 ▸ hd.paths.2) (hd.sum_le a5)
    rw [a3] at y1 y2
    refine meanUpTo_of (y := y) (ws := w.sum) ?_ (by simp) (by simpa using hd.paths.1) (by rw [List.length_map]; exact y2) a6
    rw [started_price env h s, hcls, hd.seen, hd.rate]
    show (MC.barrier .knockOut _ (pure (.num r)) (Pricer.isActive o) o.payoff.eval1 o.T ls.length x).1 = _
    rw [hop, hact, hd.optT h, y1]

end

/-! ## Merton, Kou, variance gamma -/

theorem expWork_le {ms : List ℝ} (h : ∀ m ∈ ms, 0 ≤ m) (j : ℕ) : expWork ms j ≤ expWork ms (ms.length - 1) := by
  unfold expWork
  have hl : (ms.map (1 + ·)).take (ms.length - 1 + 1) = ms.map (1 + ·) := List.take_of_length_le (by rw [List.length_map]; omega)
  rw [hl]
  refine List.Sublist.sum_le_sum (List.take_sublist _ _) fun x hx => ?_
  obtain ⟨m, hm, rfl⟩ := List.mem_map.mp hx
  have := h m hm
  linarith

theorem length_le_expWork {ms : List ℝ} (h : ∀ m ∈ ms, 0 ≤ m) : (ms.length : ℝ) ≤ expWork ms (ms.length - 1) := by
  unfold expWork
  have hl : (ms.map (1 + ·)).take (ms.length - 1 + 1) = ms.map (1 + ·) := List.take_of_length_le (by rw [List.length_map]; omega)
  rw [hl, List.sum_map_add]
  simp
  exact List.sum_nonneg h

/-- The prices of one path as a function of the date. -/
theorem path_of_list {n : ℕ} {xs ms ps : List ℝ} {S : ℝ} (hl : xs.length = n) (hl2 : ms.length = n) (hp : ps.length = n) (h0 : ∀ m ∈ ms, 0 ≤ m) (hm : ModeratePath S xs ms)
    (h : ∀ j < n, 0 < ps.getD j 0 ∧ |ps.getD j 0 - expPath S xs j| ≤ 2 ^ (-49 : ℤ) * expWork ms j * expPath S xs j) :
    ps = (List.range n).map (fun j => ps.getD j 0) ∧ ∀ j < n, 0 < ps.getD j 0 ∧ |ps.getD j 0 - expPath S xs j| ≤ 2 ^ (-49 : ℤ) * expWork ms (n - 1) * expPath S xs j := by
  refine ⟨?_, fun j hj => ⟨(h j hj).1, (h j hj).2.trans ?_⟩⟩
  · refine List.ext_getElem (by simp [hp]) fun j h1 h2 => ?_
    simp [List.getD_eq_getElem?_getD, List.getElem?_eq_getElem h1]
  · have hP : 0 < expPath S xs j := (Real.exp_pos _).trans_le (hm.prices j (by omega)).1
    have := expWork_le h0 j
    rw [hl2] at this
    exact mul_le_mul_of_nonneg_right (mul_le_mul_of_nonneg_left this (by positivity)) hP.le

section
variable {G : Type} (g : Gen G (Dbl .binary64)) {S sigma r T : ℝ} {q : Option ℝ}

theorem merton_path {lambda muJ sigmaJ : ℝ} {dP dJ : Dist (Dbl .binary64)} {l : List (ℝ × List ℝ)} {n : ℕ} {s s' : G} (hl : l.length = n)
    (hP : Dist.mkPoisson (.num lambda * Sim.dt (.num T) n) = .ok dP) (hJ : Dist.mkNormal (.num muJ) (.num sigmaJ) = .ok dJ)
    (hD : MertonDraws g dP dJ (g.newDist dJ (g.newDist dP (g.newDist .stdNormal s))) l s') (hn : n ≤ INT_MAX) (hk : ModerateMarket sigma r (q.getD 0) (T / n)) (hz : ∀ x ∈ l, |x.1| ≤ 2 ^ 100)
    (hm : ModeratePath S (l.map (mertonExponent sigma r (q.getD 0) (T / n))) (l.map (mertonSize sigma r (q.getD 0) (T / n)))) (h0 : ∀ m ∈ l.map (mertonSize sigma r (q.getD 0) (T / n)), 0 ≤ m) :
    ∃ f : ℕ → ℝ, Sim.prices g n ⟨.num S, .num sigma, q.map fun x : ℝ => .num x, .num r⟩ (.num T) (.merton (.num lambda) (.num muJ) (.num sigmaJ)) s = (.ok (((List.range n).map f).map fun x : ℝ => .num x), s') ∧
      ∀ j < n, 0 < f j ∧ |f j - expPath S (l.map (mertonExponent sigma r (q.getD 0) (T / n))) j| ≤ 2 ^ (-49 : ℤ) * expWork (l.map (mertonSize sigma r (q.getD 0) (T / n))) (n - 1) * expPath S (l.map (mertonExponent sigma r (q.getD 0) (T / n))) j := by
  subst hl
  obtain ⟨ps, p1, p2, p3⟩ := C99_merton binary64_doubleAccurate g (q := q) (l := l) (dP := dP) (dJ := dJ) hP hJ hD hn hk hz hm
  obtain ⟨e1, e2⟩ := path_of_list (by simp) (by simp) p2 h0 hm p3
  refine ⟨_, ?_, e2⟩
  rw [← e1]
  exact p1

theorem kou_path {lambda p eta1 eta2 muJ : ℝ} {dP dU dUp dDown : Dist (Dbl .binary64)} {l : List (ℝ × List ℝ)} {n : ℕ} {s s' : G} (hl : l.length = n)
    (hP : Dist.mkPoisson (.num lambda * Sim.dt (.num T) n) = .ok dP) (hU : Dist.mkUniform (lit 0) (lit 1) = .ok dU)
    (hUp : Dist.mkExponential (.num eta1) = .ok dUp) (hDown : Dist.mkExponential (.num eta2) = .ok dDown)
    (hD : KouDraws g p dP dU dUp dDown (g.newDist dDown (g.newDist dUp (g.newDist dU (g.newDist dP (g.newDist .stdNormal s))))) l s') (hn : n ≤ INT_MAX) (hk : ModerateMarket sigma r (q.getD 0) (T / n)) (hla : |lambda| ≤ 2 ^ 100) (hmu : |muJ| ≤ 2 ^ 100) (hz : ∀ x ∈ l, |x.1| ≤ 2 ^ 100)
    (hm : ModeratePath S (l.map (kouExponent sigma r (q.getD 0) lambda muJ (T / n))) (l.map (kouSize sigma r (q.getD 0) lambda muJ (T / n)))) (h0 : ∀ m ∈ l.map (kouSize sigma r (q.getD 0) lambda muJ (T / n)), 0 ≤ m) :
    ∃ f : ℕ → ℝ, Sim.prices g n ⟨.num S, .num sigma, q.map fun x : ℝ => .num x, .num r⟩ (.num T) (.kou (.num lambda) (.num p) (.num eta1) (.num eta2) (.num muJ)) s = (.ok (((List.range n).map f).map fun x : ℝ => .num x), s') ∧
      ∀ j < n, 0 < f j ∧ |f j - expPath S (l.map (kouExponent sigma r (q.getD 0) lambda muJ (T / n))) j| ≤ 2 ^ (-49 : ℤ) * expWork (l.map (kouSize sigma r (q.getD 0) lambda muJ (T / n))) (n - 1) * expPath S (l.map (kouExponent sigma r (q.getD 0) lambda muJ (T / n))) j := by
  subst hl
  obtain ⟨ps, p1, p2, p3⟩ := C99_kou binary64_doubleAccurate g (q := q) (l := l) (dP := dP) (dU := dU) (dUp := dUp) (dDown := dDown) hP hU hUp hDown hD hn hk hla hmu hz hm
  obtain ⟨e1, e2⟩ := path_of_list (by simp) (by simp) p2 h0 hm p3
  refine ⟨_, ?_, e2⟩
  rw [← e1]
  exact p1

theorem varianceGamma_path {nu theta omega : ℝ} {dG : Dist (Dbl .binary64)} {l : List (ℝ × ℝ)} {n : ℕ} {s s' : G} (hl : l.length = n)
    (hG : Dist.mkGamma (Sim.dt (.num T) n / .num nu) (.num nu) = .ok dG)
    (hD : GammaDraws g dG (g.newDist dG (g.newDist .stdNormal s)) l s') (hn : n ≤ INT_MAX) (hk : ModerateMarket sigma r (q.getD 0) (T / n)) (hth : |theta| ≤ 2 ^ 100) (hom : |omega| ≤ 2 ^ 100)
    (hz : ∀ x ∈ l, (0 ≤ x.1 ∧ x.1 ≤ 2 ^ 100) ∧ |x.2| ≤ 2 ^ 100)
    (hm : ModeratePath S (l.map (vgExponent sigma r (q.getD 0) theta omega (T / n))) (l.map (vgSize sigma r (q.getD 0) theta omega (T / n)))) (h0 : ∀ m ∈ l.map (vgSize sigma r (q.getD 0) theta omega (T / n)), 0 ≤ m) :
    ∃ f : ℕ → ℝ, Sim.prices g n ⟨.num S, .num sigma, q.map fun x : ℝ => .num x, .num r⟩ (.num T) (.varianceGamma (.num nu) (.num theta) (.num omega)) s = (.ok (((List.range n).map f).map fun x : ℝ => .num x), s') ∧
      ∀ j < n, 0 < f j ∧ |f j - expPath S (l.map (vgExponent sigma r (q.getD 0) theta omega (T / n))) j| ≤ 2 ^ (-49 : ℤ) * expWork (l.map (vgSize sigma r (q.getD 0) theta omega (T / n))) (n - 1) * expPath S (l.map (vgExponent sigma r (q.getD 0) theta omega (T / n))) j := by
  subst hl
  obtain ⟨ps, p1, p2, p3⟩ := C99_varianceGamma binary64_doubleAccurate g (q := q) (l := l) (dG := dG) hG hD hn hk hth hom hz hm
  obtain ⟨e1, e2⟩ := path_of_list (by simp) (by simp) p2 h0 hm p3
  refine ⟨_, ?_, e2⟩
  rw [← e1]
  exact p1

end

theorem Spec.PathsDrawn.all {G α : Type} {P : G → α → G → Prop} {s s' : G} {ls : List α} (h : PathsDrawn P s ls s') : ∀ a ∈ ls, ∃ s₀ s₁, P s₀ a s₁ := by
  induction h with
  | nil => simp
  | cons h t ih =>
    intro a ha
    rcases List.mem_cons.mp ha with rfl | ha
    · exact ⟨_, _, h⟩
    · exact ih a ha

section
variable {E Q : Type} (env : Env E Q (Dbl .binary64)) {i : Session (Dbl .binary64)} {c : Session.Choices} {o : OptObj (Dbl .binary64)}
  {S sigma r T : ℝ} {q : Option ℝ}

/-- **C101.** Merton's model: any option, any number of dates and paths, any numbers of jumps. -/
theorem C101_merton {lambda muJ sigmaJ : ℝ} {dP dJ : Dist (Dbl .binary64)} {ls : List (List (ℝ × List ℝ))} {x x' : E}
    (h : AcceptedSession i c (.merton (.num lambda) (.num muJ) (.num sigmaJ)) o) (hd : MarketRun i S sigma r q T ls.length) {t : Instrument} (ht : t.Asked i)
    (hP : Dist.mkPoisson (.num lambda * Sim.dt (.num T) i.dim) = .ok dP) (hJ : Dist.mkNormal (.num muJ) (.num sigmaJ) = .ok dJ)
    (hD : PathsDrawn (MertonPath env.engine.gen i.dim dP dJ) x ls x')
    (hk : ModerateMarket sigma r (q.getD 0) (T / i.dim)) (hz : ∀ l ∈ ls, ∀ x ∈ l, |x.1| ≤ 2 ^ 100)
    (hm : ∀ l ∈ ls, ModeratePath S (l.map (mertonExponent sigma r (q.getD 0) (T / i.dim))) (l.map (mertonSize sigma r (q.getD 0) (T / i.dim))))
    (hc : ∀ l ∈ ls, t.Clear (expWork (l.map (mertonSize sigma r (q.getD 0) (T / i.dim))) (i.dim - 1)) i.dim (expPath S (l.map (mertonExponent sigma r (q.getD 0) (T / i.dim))))) (s : Sys E Q (Dbl .binary64)) :
    MeanUpTo (started env c i s ls.length x).1 r T
      (ls.map fun l => t.value (i.ty = .call) i.dim (expPath S (l.map (mertonExponent sigma r (q.getD 0) (T / i.dim)))))
      (ls.map fun l => t.error (i.ty = .call) (expWork (l.map (mertonSize sigma r (q.getD 0) (T / i.dim))) (i.dim - 1)) i.dim (expPath S (l.map (mertonExponent sigma r (q.getD 0) (T / i.dim))))) := by
  have hh0 : 0 ≤ T / i.dim := le_trans (by positivity) hk.step.1
  have hl : ∀ l ∈ ls, l.length = i.dim := fun l hl => by
    obtain ⟨_, _, e, -⟩ := hD.all l hl
    exact e
  have w0 : ∀ l ∈ ls, ∀ m ∈ l.map (mertonSize sigma r (q.getD 0) (T / i.dim)), 0 ≤ m := fun l hl m hm => by
    obtain ⟨y, hy, rfl⟩ := List.mem_map.mp hm
    have := absSum_nonneg y.2
    unfold mertonSize
    positivity
  have hXX : ∀ l ∈ ls, ∀ j < i.dim, Real.exp (-300) ≤ expPath S (l.map (mertonExponent sigma r (q.getD 0) (T / i.dim))) j ∧ expPath S (l.map (mertonExponent sigma r (q.getD 0) (T / i.dim))) j ≤ Real.exp 300 := fun l hl' j hj =>
    (hm l hl').prices j (by simpa [hl l hl'] using hj)
  have hWW : ∀ l ∈ ls, (i.dim : ℝ) ≤ expWork (l.map (mertonSize sigma r (q.getD 0) (T / i.dim))) (i.dim - 1) ∧ expWork (l.map (mertonSize sigma r (q.getD 0) (T / i.dim))) (i.dim - 1) ≤ 2 ^ 40 := fun l hl' => by
    have h1 := length_le_expWork (w0 l hl')
    have h2 := (hm l hl').work
    simp only [List.length_map, hl l hl'] at h1 h2
    exact ⟨h1, h2⟩
  have hPP : ∀ l ∈ ls, ∀ s s₁, MertonPath env.engine.gen i.dim dP dJ s l s₁ → ∃ f : ℕ → ℝ,
      Sim.prices env.engine.gen i.dim ⟨.num S, .num sigma, q.map fun x : ℝ => .num x, .num r⟩ (.num T) (.merton (.num lambda) (.num muJ) (.num sigmaJ)) s =
        (.ok (((List.range i.dim).map f).map fun x : ℝ => .num x), s₁) ∧
      ∀ j < i.dim, 0 < f j ∧ |f j - expPath S (l.map (mertonExponent sigma r (q.getD 0) (T / i.dim))) j| ≤ 2 ^ (-49 : ℤ) * expWork (l.map (mertonSize sigma r (q.getD 0) (T / i.dim))) (i.dim - 1) * expPath S (l.map (mertonExponent sigma r (q.getD 0) (T / i.dim))) j := fun l hl' s s₁ hs =>
    merton_path env.engine.gen (q := q) (hl l hl') hP hJ hs.2 hd.dim.2 hk (hz l hl') (hm l hl') (w0 l hl')
  exact C101_session env (k := .merton (.num lambda) (.num muJ) (.num sigmaJ)) (P := MertonPath env.engine.gen i.dim dP dJ) (X := fun l => expPath S (l.map (mertonExponent sigma r (q.getD 0) (T / i.dim))))
    (W := fun l => expWork (l.map (mertonSize sigma r (q.getD 0) (T / i.dim))) (i.dim - 1)) (x := x) (x' := x') (ls := ls) h hd ht hD hPP hXX hWW hc s

/-- **C101.** Kou's model; `lambda` and `muJ` are the values stored in the model. -/
theorem C101_kou {lambda p eta1 eta2 muJ : ℝ} {dP dU dUp dDown : Dist (Dbl .binary64)} {ls : List (List (ℝ × List ℝ))} {x x' : E}
    (h : AcceptedSession i c (.kou (.num lambda) (.num p) (.num eta1) (.num eta2) (.num muJ)) o) (hd : MarketRun i S sigma r q T ls.length) {t : Instrument} (ht : t.Asked i)
    (hP : Dist.mkPoisson (.num lambda * Sim.dt (.num T) i.dim) = .ok dP) (hU : Dist.mkUniform (lit 0) (lit 1) = .ok dU)
    (hUp : Dist.mkExponential (.num eta1) = .ok dUp) (hDown : Dist.mkExponential (.num eta2) = .ok dDown)
    (hD : PathsDrawn (KouPath env.engine.gen i.dim p dP dU dUp dDown) x ls x')
    (hk : ModerateMarket sigma r (q.getD 0) (T / i.dim)) (hla : |lambda| ≤ 2 ^ 100) (hmu : |muJ| ≤ 2 ^ 100) (hz : ∀ l ∈ ls, ∀ x ∈ l, |x.1| ≤ 2 ^ 100)
    (hm : ∀ l ∈ ls, ModeratePath S (l.map (kouExponent sigma r (q.getD 0) lambda muJ (T / i.dim))) (l.map (kouSize sigma r (q.getD 0) lambda muJ (T / i.dim))))
    (hc : ∀ l ∈ ls, t.Clear (expWork (l.map (kouSize sigma r (q.getD 0) lambda muJ (T / i.dim))) (i.dim - 1)) i.dim (expPath S (l.map (kouExponent sigma r (q.getD 0) lambda muJ (T / i.dim))))) (s : Sys E Q (Dbl .binary64)) :
    MeanUpTo (started env c i s ls.length x).1 r T
      (ls.map fun l => t.value (i.ty = .call) i.dim (expPath S (l.map (kouExponent sigma r (q.getD 0) lambda muJ (T / i.dim)))))
      (ls.map fun l => t.error (i.ty = .call) (expWork (l.map (kouSize sigma r (q.getD 0) lambda muJ (T / i.dim))) (i.dim - 1)) i.dim (expPath S (l.map (kouExponent sigma r (q.getD 0) lambda muJ (T / i.dim))))) := by
  have hh0 : 0 ≤ T / i.dim := le_trans (by positivity) hk.step.1
  have hl : ∀ l ∈ ls, l.length = i.dim := fun l hl => by
    obtain ⟨_, _, e, -⟩ := hD.all l hl
    exact e
  have w0 : ∀ l ∈ ls, ∀ m ∈ l.map (kouSize sigma r (q.getD 0) lambda muJ (T / i.dim)), 0 ≤ m := fun l hl m hm => by
    obtain ⟨y, hy, rfl⟩ := List.mem_map.mp hm
    have := absSum_nonneg y.2
    unfold kouSize
    positivity
  have hXX : ∀ l ∈ ls, ∀ j < i.dim, Real.exp (-300) ≤ expPath S (l.map (kouExponent sigma r (q.getD 0) lambda muJ (T / i.dim))) j ∧ expPath S (l.map (kouExponent sigma r (q.getD 0) lambda muJ (T / i.dim))) j ≤ Real.exp 300 := fun l hl' j hj =>
    (hm l hl').prices j (by simpa [hl l hl'] using hj)
  have hWW : ∀ l ∈ ls, (i.dim : ℝ) ≤ expWork (l.map (kouSize sigma r (q.getD 0) lambda muJ (T / i.dim))) (i.dim - 1) ∧ expWork (l.map (kouSize sigma r (q.getD 0) lambda muJ (T / i.dim))) (i.dim - 1) ≤ 2 ^ 40 := fun l hl' => by
    have h1 := length_le_expWork (w0 l hl')
    have h2 := (hm l hl').work
    simp only [List.length_map, hl l hl'] at h1 h2
    exact ⟨h1, h2⟩
  have hPP : ∀ l ∈ ls, ∀ s s₁, KouPath env.engine.gen i.dim p dP dU dUp dDown s l s₁ → ∃ f : ℕ → ℝ,
      Sim.prices env.engine.gen i.dim ⟨.num S, .num sigma, q.map fun x : ℝ => .num x, .num r⟩ (.num T) (.kou (.num lambda) (.num p) (.num eta1) (.num eta2) (.num muJ)) s =
        (.ok (((List.range i.dim).map f).map fun x : ℝ => .num x), s₁) ∧
      ∀ j < i.dim, 0 < f j ∧ |f j - expPath S (l.map (kouExponent sigma r (q.getD 0) lambda muJ (T / i.dim))) j| ≤ 2 ^ (-49 : ℤ) * expWork (l.map (kouSize sigma r (q.getD 0) lambda muJ (T / i.dim))) (i.dim - 1) * expPath S (l.map (kouExponent sigma r (q.getD 0) lambda muJ (T / i.dim))) j := fun l hl' s s₁ hs =>
    kou_path env.engine.gen (q := q) (hl l hl') hP hU hUp hDown hs.2 hd.dim.2 hk hla hmu (hz l hl') (hm l hl') (w0 l hl')
  exact C101_session env (k := .kou (.num lambda) (.num p) (.num eta1) (.num eta2) (.num muJ)) (P := KouPath env.engine.gen i.dim p dP dU dUp dDown) (X := fun l => expPath S (l.map (kouExponent sigma r (q.getD 0) lambda muJ (T / i.dim))))
    (W := fun l => expWork (l.map (kouSize sigma r (q.getD 0) lambda muJ (T / i.dim))) (i.dim - 1)) (x := x) (x' := x') (ls := ls) h hd ht hD hPP hXX hWW hc s

/-- **C101.** The variance gamma model; `theta` and `omega` are the values stored in the model. -/
theorem C101_varianceGamma {nu theta omega : ℝ} {dG : Dist (Dbl .binary64)} {ls : List (List (ℝ × ℝ))} {x x' : E}
    (h : AcceptedSession i c (.varianceGamma (.num nu) (.num theta) (.num omega)) o) (hd : MarketRun i S sigma r q T ls.length) {t : Instrument} (ht : t.Asked i)
    (hG : Dist.mkGamma (Sim.dt (.num T) i.dim / .num nu) (.num nu) = .ok dG)
    (hD : PathsDrawn (GammaPath env.engine.gen i.dim dG) x ls x')
    (hk : ModerateMarket sigma r (q.getD 0) (T / i.dim)) (hth : |theta| ≤ 2 ^ 100) (hom : |omega| ≤ 2 ^ 100)
    (hz : ∀ l ∈ ls, ∀ x ∈ l, (0 ≤ x.1 ∧ x.1 ≤ 2 ^ 100) ∧ |x.2| ≤ 2 ^ 100)
    (hm : ∀ l ∈ ls, ModeratePath S (l.map (vgExponent sigma r (q.getD 0) theta omega (T / i.dim))) (l.map (vgSize sigma r (q.getD 0) theta omega (T / i.dim))))
    (hc : ∀ l ∈ ls, t.Clear (expWork (l.map (vgSize sigma r (q.getD 0) theta omega (T / i.dim))) (i.dim - 1)) i.dim (expPath S (l.map (vgExponent sigma r (q.getD 0) theta omega (T / i.dim))))) (s : Sys E Q (Dbl .binary64)) :
    MeanUpTo (started env c i s ls.length x).1 r T
      (ls.map fun l => t.value (i.ty = .call) i.dim (expPath S (l.map (vgExponent sigma r (q.getD 0) theta omega (T / i.dim)))))
      (ls.map fun l => t.error (i.ty = .call) (expWork (l.map (vgSize sigma r (q.getD 0) theta omega (T / i.dim))) (i.dim - 1)) i.dim (expPath S (l.map (vgExponent sigma r (q.getD 0) theta omega (T / i.dim))))) := by
  have hh0 : 0 ≤ T / i.dim := le_trans (by positivity) hk.step.1
  have hl : ∀ l ∈ ls, l.length = i.dim := fun l hl => by
    obtain ⟨_, _, e, -⟩ := hD.all l hl
    exact e
  have w0 : ∀ l ∈ ls, ∀ m ∈ l.map (vgSize sigma r (q.getD 0) theta omega (T / i.dim)), 0 ≤ m := fun l hl m hm => by
    obtain ⟨y, hy, rfl⟩ := List.mem_map.mp hm
    have := (hz l hl y hy).1.1
    unfold vgSize
    positivity
  have hXX : ∀ l ∈ ls, ∀ j < i.dim, Real.exp (-300) ≤ expPath S (l.map (vgExponent sigma r (q.getD 0) theta omega (T / i.dim))) j ∧ expPath S (l.map (vgExponent sigma r (q.getD 0) theta omega (T / i.dim))) j ≤ Real.exp 300 := fun l hl' j hj =>
    (hm l hl').prices j (by simpa [hl l hl'] using hj)
  have hWW : ∀ l ∈ ls, (i.dim : ℝ) ≤ expWork (l.map (vgSize sigma r (q.getD 0) theta omega (T / i.dim))) (i.dim - 1) ∧ expWork (l.map (vgSize sigma r (q.getD 0) theta omega (T / i.dim))) (i.dim - 1) ≤ 2 ^ 40 := fun l hl' => by
    have h1 := length_le_expWork (w0 l hl')
    have h2 := (hm l hl').work
    simp only [List.length_map, hl l hl'] at h1 h2
    exact ⟨h1, h2⟩
  have hPP : ∀ l ∈ ls, ∀ s s₁, GammaPath env.engine.gen i.dim dG s l s₁ → ∃ f : ℕ → ℝ,
      Sim.prices env.engine.gen i.dim ⟨.num S, .num sigma, q.map fun x : ℝ => .num x, .num r⟩ (.num T) (.varianceGamma (.num nu) (.num theta) (.num omega)) s =
        (.ok (((List.range i.dim).map f).map fun x : ℝ => .num x), s₁) ∧
      ∀ j < i.dim, 0 < f j ∧ |f j - expPath S (l.map (vgExponent sigma r (q.getD 0) theta omega (T / i.dim))) j| ≤ 2 ^ (-49 : ℤ) * expWork (l.map (vgSize sigma r (q.getD 0) theta omega (T / i.dim))) (i.dim - 1) * expPath S (l.map (vgExponent sigma r (q.getD 0) theta omega (T / i.dim))) j := fun l hl' s s₁ hs =>
    varianceGamma_path env.engine.gen (q := q) (hl l hl') hG hs.2 hd.dim.2 hk hth hom (hz l hl') (hm l hl') (w0 l hl')
  exact C101_session env (k := .varianceGamma (.num nu) (.num theta) (.num omega)) (P := GammaPath env.engine.gen i.dim dG) (X := fun l => expPath S (l.map (vgExponent sigma r (q.getD 0) theta omega (T / i.dim))))
    (W := fun l => expWork (l.map (vgSize sigma r (q.getD 0) theta omega (T / i.dim))) (i.dim - 1)) (x := x) (x' := x') (ls := ls) h hd ht hD hPP hXX hWW hc s

end

/-! ## Examples: any number of paths, calls and puts -/

namespace JumpSessionExample
open JumpPathErrorExample

/-- An engine that delivers 1/4 for normal numbers, two jumps in each step, 3/4 for uniform, 1/8 for exponential and 1/4 for gamma numbers. -/
noncomputable def env : Env Unit Unit (Dbl .binary64) :=
  ⟨⟨(), fun _ => (), fun d _ => (match d with
      | .normal _ _ => .num (1 / 4 : ℝ)
      | .poisson _ => .num ((2 : ℕ) : ℝ)
      | .uniform _ _ => .num (3 / 4 : ℝ)
      | .exponential _ => .num (1 / 8 : ℝ)
      | .gamma _ _ => .num (1 / 4 : ℝ), ()), fun _ _ => ()⟩,
    (toyEnv (F := Dbl .binary64)).sobol, (toyEnv (F := Dbl .binary64)).faure⟩

theorem repeated {α : Type} {P : Unit → α → Unit → Prop} {a : α} (h : P () a ()) : ∀ N : ℕ, PathsDrawn P () (List.replicate N a) ()
  | 0 => .nil _
  | N + 1 => .cons h (repeated h N)

noncomputable def session (k : ModelKind (Dbl .binary64)) (f : OptClass) (cls : PricerClass) (ps : List (String × Param (Dbl .binary64))) (ty : PayoffType) : Session (Dbl .binary64) :=
  ⟨"AAPL", .num (100 : ℝ), .num (1 / 4 : ℝ), none, .num (1 / 16 : ℝ), [("ticker", .str "AAPL"), ("T", .dbl (.num (2 : ℝ)))] ++ ps, f, ty,
    fun _ => .ok k, 2, cls, ⟨fun _ => .ok [], fun _ _ => .ok []⟩, 100000⟩

open PathErrorExample in
theorem accepted {k : ModelKind (Dbl .binary64)} {f : OptClass} {cls : PricerClass} {ps : List (String × Param (Dbl .binary64))} {ty : PayoffType} {p : Payoff (Dbl .binary64)}
    {b : Option (Dbl .binary64 × BarrierDirection)} (hty : ty = .call ∨ ty = .put) (h1 : f ∈ Family cls)
    (h2 : PayoffOf f (session k f cls ps ty).params ty p) (h3 : BarrierOf f (session k f cls ps ty).params b)
    (h4 : lastSet (session k f cls ps ty).params "ticker" = some (.str "AAPL")) (h5 : lastSet (session k f cls ps ty).params "T" = some (.dbl (.num (2 : ℝ)))) :
    AcceptedSession (session k f cls ps ty) (SessionExample.choices f) k ⟨f, "AAPL", p, .num (2 : ℝ), b⟩ where
  data := by
    refine ⟨?_, ?_, by simp [session]⟩
    · rw [num_zero, session, Dbl.le_num_false]; exact_mod_cast (by norm_num : (0 : ℝ) < 100)
    · rw [num_zero, session, Dbl.lt_num_false]; exact_mod_cast (by norm_num : (0 : ℝ) ≤ 1 / 4)
  model := rfl
  callPut := hty
  option := ⟨rfl, h4, h5, by rw [num_zero, Dbl.lt_num_false]; exact_mod_cast (by norm_num : (0 : ℝ) ≤ 2), h2, h3⟩
  ticker := rfl
  family := h1
  payoffArgs := .refl _
  optionArgs := List.reverse_perm _

theorem run {k : ModelKind (Dbl .binary64)} {f : OptClass} {cls : PricerClass} {ps : List (String × Param (Dbl .binary64))} {ty : PayoffType} {N : ℕ} (hN : 0 < N) (hN2 : N ≤ INT_MAX)
    (h5 : lastSet (session k f cls ps ty).params "T" = some (.dbl (.num (2 : ℝ)))) :
    MarketRun (session k f cls ps ty) 100 (1 / 4) (1 / 16) none 2 N where
  price := rfl
  vol := rfl
  coupon := rfl
  rate := rfl
  maturity := h5
  dim := ⟨by norm_num [session], by norm_num [session, INT_MAX]⟩
  small := by norm_num [abs_of_pos]
  paths := ⟨hN, hN2⟩

theorem step_one {k : ModelKind (Dbl .binary64)} {f : OptClass} {cls : PricerClass} {ps : List (String × Param (Dbl .binary64))} {ty : PayoffType} :
    (2 : ℝ) / (session k f cls ps ty).dim = 1 := by norm_num [session]

theorem merton_path {a b c : Dbl .binary64} : MertonPath env.engine.gen 2 (.poisson a) (.normal b c) () [(1 / 4, [1 / 4, 1 / 4]), (1 / 4, [1 / 4, 1 / 4])] () :=
  ⟨rfl, .cons rfl (by norm_num [INT_MAX]) rfl (.cons rfl (.cons rfl (.nil _))) (.cons rfl (by norm_num [INT_MAX]) rfl (.cons rfl (.cons rfl (.nil _))) (.nil _))⟩

theorem kou_path {a b c d e : Dbl .binary64} : KouPath env.engine.gen 2 (1 / 2) (.poisson a) (.uniform b c) (.exponential d) (.exponential e) ()
    [(1 / 4, [-(1 / 8), -(1 / 8)]), (1 / 4, [-(1 / 8), -(1 / 8)])] () := by
  have u : env.engine.gen.draw (.uniform b c) () = (.ok (.num ((3 / 4 : ℝ) : EReal)), ()) := rfl
  exact ⟨rfl, .cons rfl (by norm_num [INT_MAX]) rfl (.down u (by norm_num) rfl (.down u (by norm_num) rfl (.nil _)))
    (.cons rfl (by norm_num [INT_MAX]) rfl (.down u (by norm_num) rfl (.down u (by norm_num) rfl (.nil _))) (.nil _))⟩

theorem gamma_path {a b : Dbl .binary64} : GammaPath env.engine.gen 2 (.gamma a b) () [(1 / 4, 1 / 4), (1 / 4, 1 / 4)] () :=
  ⟨rfl, .cons rfl rfl (.cons rfl rfl (.nil _))⟩

variable {ty : PayoffType} (hty : ty = .call ∨ ty = .put) {N : ℕ} (hN : 0 < N) (hN2 : N ≤ INT_MAX) (s : Sys Unit Unit (Dbl .binary64))
include hty hN hN2

/-- A European option in Merton's model with two jumps in each of two steps. -/
example : MeanUpTo (started env (SessionExample.choices .european)
      (session (.merton (.num (1 : ℝ)) (.num (1 / 4 : ℝ)) (.num (1 / 8 : ℝ))) .european .singlePath [("K", .dbl (.num (96 : ℝ)))] ty) s N ()).1 (1 / 16) 2
    (List.replicate N (vanillaValue (ty = .call) 96 (100 * Real.exp (19 / 16))))
    (List.replicate N (valueError (2 ^ (-49 : ℤ) * (69 / 8)) 96 (100 * Real.exp (19 / 16)))) := by
  have e1 : mertonExponent (1 / 4) (1 / 16) 0 1 (1 / 4, [1 / 4, 1 / 4]) = 19 / 32 := by norm_num [mertonExponent]
  have e2 : mertonSize (1 / 4) (1 / 16) 0 1 (1 / 4, [1 / 4, 1 / 4]) = 53 / 16 := by norm_num [mertonSize, absSum, abs_of_pos]
  have := C101_merton env (accepted (k := .merton (.num (1 : ℝ)) (.num (1 / 4 : ℝ)) (.num (1 / 8 : ℝ))) (f := .european) (cls := .singlePath) (ps := [("K", .dbl (.num (96 : ℝ)))])
      (p := .vanilla ty (.num (96 : ℝ))) (b := none) hty (by simp [Family]) ⟨_, rfl, PathDependentExample.strike_nonneg, rfl⟩ rfl rfl rfl)
    (ls := List.replicate N [(1 / 4, [1 / 4, 1 / 4]), (1 / 4, [1 / 4, 1 / 4])]) (dP := .poisson (.num (1 : ℝ))) (dJ := .normal (.num (1 / 4 : ℝ)) (.num (1 / 8 : ℝ)))
    (by rw [List.length_replicate]; exact run hN hN2 rfl) (t := .european 96) ⟨rfl, rfl, by norm_num [abs_of_pos]⟩ poisson
    (by
      unfold Dist.mkNormal
      rw [if_neg (by simp)])
    (repeated merton_path N)
    (by rw [step_one]; exact market) (fun l hl => by rw [List.eq_of_mem_replicate hl]; simp; norm_num [abs_of_pos])
    (fun l hl => by
      rw [List.eq_of_mem_replicate hl, step_one]
      simp only [Option.getD_none, List.map_cons, List.map_nil, e1, e2]
      exact moderate (by norm_num [abs_of_pos]) (by norm_num) (by norm_num))
    (fun _ _ => trivial) s
  rw [step_one] at this
  simp only [List.map_replicate, List.length_replicate, Option.getD_none, List.map_cons, List.map_nil, e1, e2, Instrument.value, Instrument.error, expPath, expWork, session] at this
  norm_num at this
  norm_num
  exact this

/-- A floating-strike lookback option in Kou's model with two jumps down in each of two steps. -/
example : MeanUpTo (started env (SessionExample.choices .floatingLookback)
      (session (.kou (.num (1 : ℝ)) (.num (1 / 2 : ℝ)) (.num (8 : ℝ)) (.num (8 : ℝ)) (.num (3 / 2 : ℝ))) .floatingLookback .floatingLookback [] ty) s N ()).1 (1 / 16) 2
    (List.replicate N (floatingLookback (ty = .call) 2 (expPath 100 [-21 / 32, -21 / 32])))
    (List.replicate N ((2 ^ (-49 : ℤ) * (133 / 8) + 2 ^ (-51 : ℤ)) * (expPath 100 [-21 / 32, -21 / 32] 1 +
      if ty = .call then lowest 2 (expPath 100 [-21 / 32, -21 / 32]) else highest 2 (expPath 100 [-21 / 32, -21 / 32])))) := by
  have e1 : kouExponent (1 / 4) (1 / 16) 0 1 (3 / 2) 1 (1 / 4, [-(1 / 8), -(1 / 8)]) = -21 / 32 := by norm_num [kouExponent]
  have e2 : kouSize (1 / 4) (1 / 16) 0 1 (3 / 2) 1 (1 / 4, [-(1 / 8), -(1 / 8)]) = 117 / 16 := by norm_num [kouSize, absSum, abs_div, abs_neg]
  have e3 : expWork [117 / 16, 117 / 16] 1 = 133 / 8 := by norm_num [expWork]
  have := C101_kou env (accepted (k := .kou (.num (1 : ℝ)) (.num (1 / 2 : ℝ)) (.num (8 : ℝ)) (.num (8 : ℝ)) (.num (3 / 2 : ℝ))) (f := .floatingLookback) (cls := .floatingLookback) (ps := [])
      (p := .floatingLookback ty) (b := none) hty (by simp [Family]) rfl rfl rfl rfl)
    (ls := List.replicate N [(1 / 4, [-(1 / 8), -(1 / 8)]), (1 / 4, [-(1 / 8), -(1 / 8)])]) (dP := .poisson (.num (1 : ℝ))) (dU := .uniform (lit 0) (lit 1))
    (dUp := .exponential (.num (8 : ℝ))) (dDown := .exponential (.num (8 : ℝ)))
    (by rw [List.length_replicate]; exact run hN hN2 rfl) (t := .floatingLookback) rfl poisson
    (by
      unfold Dist.mkUniform
      rw [if_neg (by
        have : (lit 1 : Dbl .binary64) = .num ((1 : ℝ) : EReal) := by
          rw [Dbl.lit_def]
          push_cast
          rw [rnd_one, EReal.coe_one]
        rw [this]
        simp)]) (by
      unfold Dist.mkExponential
      rw [if_neg (by simp)]) (by
      unfold Dist.mkExponential
      rw [if_neg (by simp)]) (repeated kou_path N)
    (by rw [step_one]; exact market) (by norm_num) (by norm_num [abs_of_pos]) (fun l hl => by rw [List.eq_of_mem_replicate hl]; simp; norm_num [abs_of_pos])
    (fun l hl => by
      rw [List.eq_of_mem_replicate hl, step_one]
      simp only [Option.getD_none, List.map_cons, List.map_nil, e1, e2]
      exact moderate (by norm_num [abs_div, abs_neg]) (by norm_num) (by norm_num))
    (fun _ _ => trivial) s
  rw [step_one] at this
  simp only [List.map_replicate, List.length_replicate, Option.getD_none, List.map_cons, List.map_nil, e1, e2, Instrument.value, Instrument.error] at this
  rw [← e3]
  exact this

/-- A digital option with strike 10 in the variance gamma model. -/
example : MeanUpTo (started env (SessionExample.choices .digital)
      (session (.varianceGamma (.num (1 : ℝ)) (.num (-1 / 4 : ℝ)) (.num (1 / 8 : ℝ))) .digital .singlePath [("K", .dbl (.num (10 : ℝ)))] ty) s N ()).1 (1 / 16) 2
    (List.replicate N (if ty = .call then 1 else 0)) (List.replicate N 0) := by
  have hs : Real.sqrt (1 / 4) = 1 / 2 := by
    rw [show (1 / 4 : ℝ) = (1 / 2) ^ 2 by norm_num, Real.sqrt_sq (by norm_num)]
  have e1 : vgExponent (1 / 4) (1 / 16) 0 (-1 / 4) (1 / 8) 1 (1 / 4, 1 / 4) = 5 / 32 := by
    unfold vgExponent
    rw [hs]
    norm_num
  have e2 : vgSize (1 / 4) (1 / 16) 0 (-1 / 4) (1 / 8) 1 (1 / 4, 1 / 4) = 9 / 32 := by
    unfold vgSize
    rw [hs]
    norm_num [abs_div, abs_neg]
  have e3 : expPath 100 [5 / 32, 5 / 32] 1 = 100 * Real.exp (5 / 16) := by norm_num [expPath]
  have e4 : expWork [9 / 32, 9 / 32] 1 = 41 / 16 := by norm_num [expWork]
  have h1 : 1 ≤ Real.exp (5 / 16) := Real.one_le_exp (by norm_num)
  have := C101_varianceGamma env (accepted (k := .varianceGamma (.num (1 : ℝ)) (.num (-1 / 4 : ℝ)) (.num (1 / 8 : ℝ))) (f := .digital) (cls := .singlePath) (ps := [("K", .dbl (.num (10 : ℝ)))])
      (p := .digital ty (.num (10 : ℝ))) (b := none) hty (by simp [Family]) ⟨_, rfl, by
        rw [PathErrorExample.num_zero, Dbl.lt_num_false]; exact_mod_cast (by norm_num : (0 : ℝ) ≤ 10), rfl⟩ rfl rfl rfl)
    (ls := List.replicate N [(1 / 4, 1 / 4), (1 / 4, 1 / 4)]) (dG := .gamma (.num (1 : ℝ)) (.num (1 : ℝ)))
    (by rw [List.length_replicate]; exact run hN hN2 rfl) (t := .digital 10) ⟨rfl, rfl⟩
    (by
      show Dist.mkGamma (Sim.dt _ 2 / _) _ = _
      rw [dt_one, Dbl.div_coe _ (by norm_num), div_self (by norm_num), rnd_one]
      unfold Dist.mkGamma
      rw [if_neg (by simp)]) (repeated gamma_path N)
    (by rw [step_one]; exact market) (by norm_num [abs_div, abs_neg]) (by norm_num [abs_of_pos]) (fun l hl => by rw [List.eq_of_mem_replicate hl]; simp; norm_num [abs_of_pos])
    (fun l hl => by
      rw [List.eq_of_mem_replicate hl, step_one]
      simp only [Option.getD_none, List.map_cons, List.map_nil, e1, e2]
      exact moderate (by norm_num [abs_of_pos]) (by norm_num) (by norm_num))
    (fun l hl => by
      rw [List.eq_of_mem_replicate hl, step_one]
      simp only [Option.getD_none, List.map_cons, List.map_nil, e1, e2]
      show 2 ^ (-49 : ℤ) * expWork [9 / 32, 9 / 32] 1 * expPath 100 [5 / 32, 5 / 32] 1 < |expPath 100 [5 / 32, 5 / 32] 1 - 10|
      rw [e3, e4, abs_of_nonneg (by linarith)]
      norm_num
      linarith) s
  rw [step_one] at this
  simp only [List.map_replicate, List.length_replicate, Option.getD_none, List.map_cons, List.map_nil, e1, e2, Instrument.value, Instrument.error] at this
  have e5 : digitalValue (ty = .call) 10 (expPath 100 [5 / 32, 5 / 32] 1) = if ty = .call then 1 else 0 := by
    rw [e3]
    unfold digitalValue
    split_ifs <;> first | rfl | linarith
  rw [← e5]
  exact this

end JumpSessionExample
end Verif
