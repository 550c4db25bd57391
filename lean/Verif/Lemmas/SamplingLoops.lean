import Verif.Lemmas.Sampling
import Verif.Model.Control

/-!
# Loops that draw random numbers
-/

namespace Verif
open MeasureTheory ProbabilityTheory Function
open scoped ENNReal

/-! ## Lists of numbers as a measurable space -/

/-- A list as its length and its elements, continued with zeros. -/
def listCode (l : List ℝ) : ℕ × (ℕ → ℝ) := (l.length, fun i => l.getD i 0)

instance listMeasurable : MeasurableSpace (List ℝ) := MeasurableSpace.comap listCode inferInstance

theorem measurable_listCode : Measurable listCode := comap_measurable listCode

variable {α β γ G : Type} [MeasurableSpace α] [MeasurableSpace β] [MeasurableSpace γ] [MeasurableSpace G]

theorem measurable_toList {f : α → List ℝ} (h : Measurable fun a => (f a).length) (h' : ∀ i, Measurable fun a => (f a).getD i 0) :
    Measurable f := by
  rw [measurable_comap_iff]
  exact h.prodMk (measurable_pi_lambda _ h')

theorem measurable_length : Measurable (List.length : List ℝ → ℕ) := measurable_fst.comp measurable_listCode
theorem measurable_getD (i : ℕ) : Measurable (fun l : List ℝ => l.getD i 0) := (measurable_pi_apply i).comp (measurable_snd.comp measurable_listCode)

theorem measurable_fromList {φ : List ℝ → β} (h : ∀ n, Measurable fun v : Fin n → ℝ => φ (List.ofFn v)) : Measurable φ := by
  have e : φ = (fun p : ℕ × (ℕ → ℝ) => φ (List.ofFn fun i : Fin p.1 => p.2 i)) ∘ listCode := by
    funext l
    simp only [comp, listCode]
    congr 1
    refine List.ext_getElem (by simp) fun i h1 h2 => ?_
    simp [h1]
  rw [e]
  refine Measurable.comp ?_ measurable_listCode
  refine measurable_from_prod_countable_right fun n => ?_
  exact (h n).comp (measurable_pi_lambda _ fun i => measurable_pi_apply _)

theorem measurable_cons : Measurable fun p : ℝ × List ℝ => p.1 :: p.2 := by
  refine measurable_toList ?_ fun i => ?_
  · simp only [List.length_cons]
    exact (measurable_length.comp measurable_snd).add_const 1
  · cases i with
    | zero => simpa using measurable_fst
    | succ i => simpa [Function.comp_def] using (measurable_getD i).comp measurable_snd

theorem measurable_take (k : ℕ) : Measurable fun l : List ℝ => l.take k := by
  refine measurable_toList ?_ fun i => ?_
  · simp only [List.length_take]
    exact measurable_const.min measurable_length
  · by_cases h : i < k
    · have : ∀ l : List ℝ, (l.take k).getD i 0 = l.getD i 0 := by
        intro l; simp [List.getD_eq_getElem?_getD, List.getElem?_take, h]
      simp only [this]
      exact measurable_getD i
    · have : ∀ l : List ℝ, (l.take k).getD i 0 = 0 := by
        intro l; simp [List.getD_eq_getElem?_getD, List.getElem?_take, h]
      simp only [this]
      exact measurable_const

/-! ## Loops -/

variable {μ : Measure G} [IsProbabilityMeasure μ]

theorem Random.unfoldN {body : α → Eff G (α × ℝ)} (h : Random μ body) : ∀ n, Random μ (Eff.unfoldN body n)
  | 0 => Random.pure measurable_const
  | n + 1 => h.bind (((Random.unfoldN h n).comp (measurable_fst.comp measurable_snd)).bind
      (Random.pure (measurable_cons.comp ((measurable_snd.comp (measurable_snd.comp measurable_fst)).prodMk measurable_snd))))

theorem expect_unfoldN_succ {body : α → Eff G (α × ℝ)} (h : Random μ body) (n : ℕ) (a : α) {φ : List ℝ → ℝ≥0∞} (hφ : Measurable φ) :
    expect μ (Eff.unfoldN body (n + 1) a) φ = expect μ (body a) fun x => expect μ (Eff.unfoldN body n x.1) fun l => φ (x.2 :: l) := by
  have hc : Measurable fun p : (α × ℝ) × List ℝ => p.1.2 :: p.2 := measurable_cons.comp ((measurable_snd.comp measurable_fst).prodMk measurable_snd)
  have h1 : Random μ fun x : α × ℝ => Eff.unfoldN body n x.1 >>= fun rest => (Pure.pure (x.2 :: rest) : Eff G (List ℝ)) :=
    ((h.unfoldN n).comp measurable_fst).bind (Random.pure hc)
  have := expect_bind (g := fun _ x => Eff.unfoldN body n x.1 >>= fun rest => (Pure.pure (x.2 :: rest) : Eff G (List ℝ))) h
    (h1.comp measurable_snd) a hφ
  refine this.trans ?_
  congr 1
  funext x
  rw [expect_bind (f := fun x : α × ℝ => Eff.unfoldN body n x.1) (g := fun x rest => (Pure.pure (x.2 :: rest) : Eff G (List ℝ)))
    ((h.unfoldN n).comp measurable_fst) (Random.pure hc) x hφ]
  simp only [expect_pure]

/-- One element and a test function of the elements before it: if each step multiplies the expectation by `c`, so does
each element. -/
theorem expect_unfoldN_next {body : α → Eff G (α × ℝ)} (h : Random μ body) {w : α → ℝ≥0∞} {c : ℝ≥0∞} {e : ℝ → ℝ≥0∞} (he : Measurable e)
    (hw : Measurable w) (hc : ∀ a, expect μ (body a) (fun x => e x.2) = c * w a)
    (hx : ∀ a s x s', body a s = (.ok x, s') → e x.2 = w x.1) : ∀ (k n : ℕ) (a : α) (φ : List ℝ → ℝ≥0∞), Measurable φ → k < n →
    expect μ (Eff.unfoldN body n a) (fun l => e (l.getD k 0) * φ (l.take k)) =
      c * expect μ (Eff.unfoldN body n a) (fun l => (if k = 0 then w a else e (l.getD (k - 1) 0)) * φ (l.take k)) := by
  intro k
  induction k with
  | zero =>
    intro n a φ hφ hk
    obtain ⟨m, rfl⟩ : ∃ m, n = m + 1 := ⟨n - 1, by omega⟩
    rw [expect_unfoldN_succ h m a (φ := fun l => e (l.getD 0 0) * φ (l.take 0))
      ((he.comp (measurable_getD 0)).mul (hφ.comp (measurable_take 0)))]
    simp only [if_true, List.take_zero, List.getD_cons_zero]
    simp only [expect_const (h.unfoldN _)]
    rw [expect_mul_const h a (φ := fun x => e x.2) (he.comp measurable_snd), hc, mul_assoc]
  | succ k ih =>
    intro n a φ hφ hk
    obtain ⟨m, rfl⟩ : ∃ m, n = m + 1 := ⟨n - 1, by omega⟩
    rw [expect_unfoldN_succ h m a (φ := fun l => e (l.getD (k + 1) 0) * φ (l.take (k + 1)))
      ((he.comp (measurable_getD _)).mul (hφ.comp (measurable_take _)))]
    simp only [Nat.add_eq_zero_iff, one_ne_zero, and_false, if_false, Nat.add_sub_cancel]
    rw [expect_unfoldN_succ h m a (φ := fun l => e (l.getD k 0) * φ (l.take (k + 1)))
      ((he.comp (measurable_getD _)).mul (hφ.comp (measurable_take _)))]
    simp only [List.getD_cons_succ, List.take_succ_cons]
    have hφ' : ∀ x : α × ℝ, Measurable fun l => φ (x.2 :: l) := fun x => hφ.comp (measurable_cons.comp measurable_prodMk_left)
    have e1 : ∀ x : α × ℝ, expect μ (Eff.unfoldN body m x.1) (fun l => e (l.getD k 0) * φ (x.2 :: l.take k)) =
        c * expect μ (Eff.unfoldN body m x.1) (fun l => (if k = 0 then w x.1 else e (l.getD (k - 1) 0)) * φ (x.2 :: l.take k)) :=
      fun x => ih m x.1 (fun l => φ (x.2 :: l)) (hφ' x) (by omega)
    simp only [e1]
    rw [expect_const_mul h a (φ := fun x => expect μ (Eff.unfoldN body m x.1)
      fun l => (if k = 0 then w x.1 else e (l.getD (k - 1) 0)) * φ (x.2 :: l.take k))]
    · congr 1
      refine expect_congr fun s x s' hb => ?_
      congr 1
      funext l
      cases k with
      | zero => simp [hx a s x s' hb]
      | succ k => simp
    · refine ((h.unfoldN m).comp measurable_fst).measurable_expect (α := α × ℝ)
        (φ := fun q => (if k = 0 then w q.1.1 else e (q.2.getD (k - 1) 0)) * φ (q.1.2 :: q.2.take k)) ?_
      refine Measurable.mul ?_ ?_
      · by_cases hk0 : k = 0
        · simp only [hk0, if_true]
          exact hw.comp (measurable_fst.comp measurable_fst)
        · simp only [hk0, if_false]
          exact he.comp ((measurable_getD _).comp measurable_snd)
      · exact hφ.comp (measurable_cons.comp ((measurable_snd.comp measurable_fst).prodMk ((measurable_take k).comp measurable_snd)))

/-- The expectation of an element. -/
theorem expect_unfoldN_getD {body : α → Eff G (α × ℝ)} (h : Random μ body) {w : α → ℝ≥0∞} {c : ℝ≥0∞} {e : ℝ → ℝ≥0∞} (he : Measurable e)
    (hw : Measurable w) (hc : ∀ a, expect μ (body a) (fun x => e x.2) = c * w a)
    (hx : ∀ a s x s', body a s = (.ok x, s') → e x.2 = w x.1) (n : ℕ) (a : α) : ∀ k, k < n →
    expect μ (Eff.unfoldN body n a) (fun l => e (l.getD k 0)) = c ^ (k + 1) * w a
  | 0, hk => by
    have := expect_unfoldN_next h he hw hc hx 0 n a (fun _ => 1) measurable_const hk
    simpa [expect_const (h.unfoldN n)] using this
  | k + 1, hk => by
    have := expect_unfoldN_next h he hw hc hx (k + 1) n a (fun _ => 1) measurable_const hk
    have ih := expect_unfoldN_getD h he hw hc hx n a k (by omega)
    simp only [mul_one, Nat.add_eq_zero_iff, one_ne_zero, and_false, if_false, Nat.add_sub_cancel] at this
    rw [this, ih, pow_succ' c (k + 1), mul_assoc]

end Verif
