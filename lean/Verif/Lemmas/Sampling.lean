import Verif.Spec.RandomSource
import Verif.Lemmas.StockModel
import Mathlib.MeasureTheory.Integral.Prod

/-!
# Programs that draw random numbers

`Sampled μ f y t`: started in a state with law `μ`, the program `f a` returns `y a` and leaves the state `t a`; the result
is independent of the new state, and the new state has the law `μ` again.  The property is closed under
sequencing and loops.
-/

namespace Verif
open MeasureTheory ProbabilityTheory Function
open scoped ENNReal

variable {G α β γ : Type} [MeasurableSpace G] [MeasurableSpace α] [MeasurableSpace β] [MeasurableSpace γ]

structure Sampled (μ : Measure G) (f : α → Eff G β) (y : α → G → β) (t : α → G → G) : Prop where
  measurable_y : Measurable (uncurry y)
  measurable_t : Measurable (uncurry t)
  run : ∀ a s, f a s = (.ok (y a s), t a s)
  indep : ∀ a, μ.map (fun s => (y a s, t a s)) = (μ.map (y a)).prod μ

namespace Sampled
variable {μ : Measure G} [IsProbabilityMeasure μ] {f : α → Eff G β} {y : α → G → β} {t : α → G → G}

omit [IsProbabilityMeasure μ] in
theorem measurable_ya (h : Sampled μ f y t) (a : α) : Measurable (y a) := h.measurable_y.comp measurable_prodMk_left
omit [IsProbabilityMeasure μ] in
theorem measurable_ta (h : Sampled μ f y t) (a : α) : Measurable (t a) := h.measurable_t.comp measurable_prodMk_left

/-- Expectations of the result and the new state. -/
theorem lintegral (h : Sampled μ f y t) (a : α) {φ : β × G → ℝ≥0∞} (hφ : Measurable φ) :
    ∫⁻ s, φ (y a s, t a s) ∂μ = ∫⁻ s, ∫⁻ s', φ (y a s, s') ∂μ ∂μ := by
  have := h.measurable_ya a
  have := h.measurable_ta a
  rw [← lintegral_map (f := φ) (g := fun s => (y a s, t a s)) hφ (by fun_prop), h.indep a]
  haveI : IsProbabilityMeasure (μ.map (y a)) := Measure.isProbabilityMeasure_map (by fun_prop)
  rw [lintegral_prod _ (by fun_prop), lintegral_map (by fun_prop) (by fun_prop)]

theorem of_lintegral (hy : Measurable (uncurry y)) (ht : Measurable (uncurry t)) (hr : ∀ a s, f a s = (.ok (y a s), t a s))
    (h : ∀ a (φ : β × G → ℝ≥0∞), Measurable φ → ∫⁻ s, φ (y a s, t a s) ∂μ = ∫⁻ s, ∫⁻ s', φ (y a s, s') ∂μ ∂μ) : Sampled μ f y t := by
  refine ⟨hy, ht, hr, fun a => ?_⟩
  have m1 : Measurable (y a) := hy.comp measurable_prodMk_left
  have m2 : Measurable (t a) := ht.comp measurable_prodMk_left
  haveI : IsProbabilityMeasure (μ.map (y a)) := Measure.isProbabilityMeasure_map (by fun_prop)
  refine Measure.ext_of_lintegral _ fun φ hφ => ?_
  rw [lintegral_map hφ (by fun_prop), h a φ hφ, lintegral_prod _ (by fun_prop), lintegral_map (by fun_prop) (by fun_prop)]

/-- The new state has the law of the old one. -/
theorem preserving (h : Sampled μ f y t) (a : α) : MeasurePreserving (t a) μ μ := by
  refine ⟨h.measurable_ta a, Measure.ext_of_lintegral _ fun φ hφ => ?_⟩
  rw [lintegral_map hφ (h.measurable_ta a), h.lintegral a (φ := fun p => φ p.2) (by fun_prop)]
  simp

theorem pure {k : α → β} (hk : Measurable k) : Sampled μ (fun a => (pure (k a) : Eff G β)) (fun a _ => k a) (fun _ s => s) :=
  of_lintegral (by fun_prop) (by fun_prop) (fun _ _ => rfl) (fun a φ hφ => by simp)

/-- Substitute the parameter. -/
theorem comp (h : Sampled μ f y t) {k : γ → α} (hk : Measurable k) : Sampled μ (fun c => f (k c)) (fun c => y (k c)) (fun c => t (k c)) :=
  ⟨h.measurable_y.comp (hk.prodMap measurable_id), h.measurable_t.comp (hk.prodMap measurable_id), fun c s => h.run (k c) s,
    fun c => h.indep (k c)⟩

theorem bind (h : Sampled μ f y t) {f' : α × β → Eff G γ} {y' : α × β → G → γ} {t' : α × β → G → G} (h' : Sampled μ f' y' t') :
    Sampled μ (fun a => f a >>= fun b => f' (a, b)) (fun a s => y' (a, y a s) (t a s)) (fun a s => t' (a, y a s) (t a s)) := by
  have m1 := h.measurable_y
  have m2 := h.measurable_t
  have m3 := h'.measurable_y
  have m4 := h'.measurable_t
  have my : Measurable fun p : α × G => y p.1 p.2 := m1
  have mt : Measurable fun p : α × G => t p.1 p.2 := m2
  have my' : Measurable fun p : (α × β) × G => y' p.1 p.2 := m3
  have mt' : Measurable fun p : (α × β) × G => t' p.1 p.2 := m4
  refine of_lintegral ?_ ?_ (fun a s => ?_) (fun a φ hφ => ?_)
  · exact my'.comp (((measurable_fst).prodMk my).prodMk mt)
  · exact mt'.comp (((measurable_fst).prodMk my).prodMk mt)
  · rw [Eff.bind_of_ok (h.run a s)]
    exact h'.run _ _
  · have e1 := h.lintegral a (φ := fun p => φ (y' (a, p.1) p.2, t' (a, p.1) p.2))
      (hφ.comp ((my'.comp ((measurable_const.prodMk measurable_fst).prodMk measurable_snd)).prodMk
        (mt'.comp ((measurable_const.prodMk measurable_fst).prodMk measurable_snd))))
    have mφ : Measurable fun c : γ => ∫⁻ s', φ (c, s') ∂μ := Measurable.lintegral_prod_right' hφ
    have e2 := h.lintegral a (φ := fun p => ∫⁻ s', φ (y' (a, p.1) p.2, s') ∂μ)
      (mφ.comp (my'.comp ((measurable_const.prodMk measurable_fst).prodMk measurable_snd)))
    rw [e1, e2]
    refine lintegral_congr fun s => ?_
    exact h'.lintegral (a, y a s) hφ

/-- Same results, other presentation. -/
theorem congr (h : Sampled μ f y t) {f' : α → Eff G β} {y' : α → G → β} {t' : α → G → G} (hf : ∀ a s, f' a s = f a s)
    (hy : ∀ a s, y' a s = y a s) (ht : ∀ a s, t' a s = t a s) : Sampled μ f' y' t' := by
  obtain rfl : f' = f := funext₂ hf
  obtain rfl : y' = y := funext₂ hy
  obtain rfl : t' = t := funext₂ ht
  exact h

end Sampled

/-- A program that draws random numbers: see `Sampled`. -/
def Random (μ : Measure G) (f : α → Eff G β) : Prop := ∃ y t, Sampled μ f y t

/-- Expectation of `φ` of the result (0 for runs that do not return). -/
noncomputable def expect (μ : Measure G) (e : Eff G β) (φ : β → ℝ≥0∞) : ℝ≥0∞ :=
  ∫⁻ s, (match (e s).1 with | .ok b => φ b | _ => 0) ∂μ

namespace Random
variable {μ : Measure G} [IsProbabilityMeasure μ] {f : α → Eff G β}

theorem pure {k : α → β} (hk : Measurable k) : Random μ (fun a => (pure (k a) : Eff G β)) := ⟨_, _, Sampled.pure hk⟩

theorem comp (h : Random μ f) {k : γ → α} (hk : Measurable k) : Random μ (fun c => f (k c)) :=
  have ⟨_, _, h⟩ := h
  ⟨_, _, h.comp hk⟩

theorem bind {g : α → β → Eff G γ} (h : Random μ f) (h' : Random μ fun p : α × β => g p.1 p.2) : Random μ fun a => f a >>= g a :=
  have ⟨_, _, h⟩ := h
  have ⟨_, _, h'⟩ := h'
  ⟨_, _, h.bind h'⟩

theorem congr (h : Random μ f) {f' : α → Eff G β} (e : ∀ a, f' a = f a) : Random μ f' := by
  rwa [show f' = f from funext e]

theorem ite {g : α → Eff G β} {p : α → Prop} [DecidablePred p] (hp : MeasurableSet {a | p a}) (h : Random μ f) (h' : Random μ g) :
    Random μ fun a => if p a then f a else g a := by
  obtain ⟨y, t, h⟩ := h
  obtain ⟨y', t', h'⟩ := h'
  have hp' : MeasurableSet {x : α × G | p x.1} := measurable_fst hp
  refine ⟨fun a s => if p a then y a s else y' a s, fun a s => if p a then t a s else t' a s, ?_, ?_, fun a s => ?_, fun a => ?_⟩
  · exact Measurable.ite hp' h.measurable_y h'.measurable_y
  · exact Measurable.ite hp' h.measurable_t h'.measurable_t
  · by_cases hc : p a <;> simp [hc, h.run, h'.run]
  · by_cases hc : p a
    · simp [hc, h.indep]
    · simp [hc, h'.indep]

theorem countable {f : ℕ → α → Eff G β} (h : ∀ n, Random μ (f n)) : Random μ fun p : ℕ × α => f p.1 p.2 := by
  choose y t h using h
  refine ⟨fun p => y p.1 p.2, fun p => t p.1 p.2, ?_, ?_, fun p s => (h p.1).run p.2 s, fun p => (h p.1).indep p.2⟩
  · have : Measurable fun q : ℕ × (α × G) => y q.1 q.2.1 q.2.2 := measurable_from_prod_countable_right fun n => (h n).measurable_y
    exact this.comp ((measurable_fst.comp measurable_fst).prodMk ((measurable_snd.comp measurable_fst).prodMk measurable_snd))
  · have : Measurable fun q : ℕ × (α × G) => t q.1 q.2.1 q.2.2 := measurable_from_prod_countable_right fun n => (h n).measurable_t
    exact this.comp ((measurable_fst.comp measurable_fst).prodMk ((measurable_snd.comp measurable_fst).prodMk measurable_snd))

theorem forN {body : α → Eff G α} (h : Random μ body) : ∀ n, Random μ (Eff.forN body n)
  | 0 => pure measurable_id
  | n + 1 => h.bind ((forN h n).comp measurable_snd)

theorem forN_count {body : α → Eff G α} (h : Random μ body) : Random μ fun p : ℕ × α => Eff.forN body p.1 p.2 := countable (forN h)

theorem expect_eq {y : α → G → β} {t : α → G → G} (h : Sampled μ f y t) (a : α) (φ : β → ℝ≥0∞) :
    expect μ (f a) φ = ∫⁻ s, φ (y a s) ∂μ := by
  unfold expect
  refine lintegral_congr fun s => ?_
  rw [h.run]

theorem measurable_expect (h : Random μ f) {φ : α × β → ℝ≥0∞} (hφ : Measurable φ) : Measurable fun a => expect μ (f a) fun b => φ (a, b) := by
  obtain ⟨y, t, h⟩ := h
  simp only [expect_eq h]
  have my : Measurable fun p : α × G => y p.1 p.2 := h.measurable_y
  exact Measurable.lintegral_prod_right' (f := fun p : α × G => φ (p.1, y p.1 p.2)) (by fun_prop)

end Random

variable {μ : Measure G} [IsProbabilityMeasure μ] {f : α → Eff G β}

theorem expect_pure (b : β) (φ : β → ℝ≥0∞) : expect μ (pure b : Eff G β) φ = φ b := by
  unfold expect
  simp

theorem expect_bind {g : α → β → Eff G γ} (h : Random μ f) (h' : Random μ fun p : α × β => g p.1 p.2) (a : α) {φ : γ → ℝ≥0∞}
    (hφ : Measurable φ) : expect μ (f a >>= g a) φ = expect μ (f a) fun b => expect μ (g a b) φ := by
  have hm := (h'.measurable_expect (φ := fun q => φ q.2) (by fun_prop)).comp (measurable_prodMk_left (x := a))
  obtain ⟨y, t, h⟩ := h
  obtain ⟨y', t', h'⟩ := h'
  have hb := h.bind h'
  rw [Random.expect_eq hb, Random.expect_eq h]
  have my' : Measurable fun p : (α × β) × G => y' p.1 p.2 := h'.measurable_y
  have := h.lintegral a (φ := fun p => φ (y' (a, p.1) p.2))
    (hφ.comp (my'.comp ((measurable_const.prodMk measurable_fst).prodMk measurable_snd)))
  rw [this]
  refine lintegral_congr fun s => ?_
  exact (Random.expect_eq h' (a, y a s) φ).symm

omit [MeasurableSpace β] [IsProbabilityMeasure μ] in
theorem expect_congr {e : Eff G β} {φ ψ : β → ℝ≥0∞} (h : ∀ s b s', e s = (.ok b, s') → φ b = ψ b) : expect μ e φ = expect μ e ψ := by
  unfold expect
  refine lintegral_congr fun s => ?_
  rcases hs : e s with ⟨r, s'⟩
  cases r with
  | ok b => exact h s b s' hs
  | throw _ => rfl
  | ub => rfl

theorem expect_const_mul (h : Random μ f) (a : α) {φ : β → ℝ≥0∞} (hφ : Measurable φ) (c : ℝ≥0∞) :
    expect μ (f a) (fun b => c * φ b) = c * expect μ (f a) φ := by
  obtain ⟨y, t, h⟩ := h
  rw [Random.expect_eq h, Random.expect_eq h]
  exact lintegral_const_mul c (hφ.comp (h.measurable_ya a))

theorem expect_mul_const (h : Random μ f) (a : α) {φ : β → ℝ≥0∞} (hφ : Measurable φ) (c : ℝ≥0∞) :
    expect μ (f a) (fun b => φ b * c) = expect μ (f a) φ * c := by
  simp only [mul_comm _ c]
  exact expect_const_mul h a hφ c

theorem expect_const (h : Random μ f) (a : α) (c : ℝ≥0∞) : expect μ (f a) (fun _ => c) = c := by
  obtain ⟨y, t, h⟩ := h
  rw [Random.expect_eq h]
  simp

end Verif
