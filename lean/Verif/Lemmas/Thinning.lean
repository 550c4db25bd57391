import Verif.Lemmas.LogSteps

/-!
# A path looked at on every `m`-th date has the law of a path with longer steps
-/

namespace Verif
open MeasureTheory ProbabilityTheory Function Spec
open scoped ENNReal

variable {G : Type} [MeasurableSpace G] {μ : Measure G} [IsProbabilityMeasure μ]
variable {G' : Type} [MeasurableSpace G'] {μ' : Measure G'} [IsProbabilityMeasure μ']

/-- Every `m`-th entry. -/
def thin (m n : ℕ) (l : List ℝ) : List ℝ := (List.range n).map fun i => l.getD (m * (i + 1) - 1) 0

theorem thin_succ (j n : ℕ) (l : List ℝ) : thin (j + 1) (n + 1) l = l.getD j 0 :: thin (j + 1) n (l.drop (j + 1)) := by
  unfold thin
  rw [List.range_succ_eq_map, List.map_cons, List.map_map]
  congr 1
  · congr 1; omega
  · refine List.map_congr_left fun i _ => ?_
    simp only [Function.comp, List.getD_eq_getElem?_getD, List.getElem?_drop]
    congr 2
    have : (j + 1) * (i + 1 + 1) = (j + 1) * (i + 1) + (j + 1) := by ring
    have : 0 < (j + 1) * (i + 1) := by positivity
    simp only [Nat.succ_eq_add_one]
    omega

theorem measurable_thin (m n : ℕ) : Measurable (thin m n) := by
  refine measurable_toList (by simp only [thin, List.length_map, List.length_range]; exact measurable_const) fun i => ?_
  by_cases hi : i < n
  · have : (fun l => (thin m n l).getD i 0) = fun l : List ℝ => l.getD (m * (i + 1) - 1) 0 := by
      funext l; simp [thin, hi]
    rw [this]
    exact measurable_getD _
  · have : (fun l => (thin m n l).getD i 0) = fun _ => 0 := by
      funext l; simp [thin, hi]
    rw [this]
    exact measurable_const

theorem measurable_dropList (n : ℕ) : Measurable fun l : List ℝ => l.drop n := by
  refine measurable_toList ?_ fun i => ?_
  · simp only [List.length_drop]
    exact (measurable_from_nat (f := fun k => k - n)).comp measurable_length
  · have : (fun l : List ℝ => (l.drop n).getD i 0) = fun l => l.getD (n + i) 0 := by
      funext l; simp [List.getD_eq_getElem?_getD, List.getElem?_drop]
    rw [this]
    exact measurable_getD _

namespace LogStep
variable {step : ℝ → Eff G (ℝ × ℝ)} {Q : Measure ℝ} [IsProbabilityMeasure Q]

/-- The first `j + 1` steps at once. -/
theorem expect_block (h : LogStep μ step Q) {ψ : ℝ × List ℝ → ℝ≥0∞} (hψ : Measurable ψ) (k : ℕ) : ∀ (j : ℕ) (S : ℝ),
    expect μ (Eff.unfoldN step (j + 1 + k) S) (fun l => ψ (l.getD j 0, l.drop (j + 1))) =
      ∫⁻ y, expect μ (Eff.unfoldN step k (S * Real.exp y)) (fun l => ψ (S * Real.exp y, l)) ∂sumLaw Q (j + 1) := by
  have hF : Measurable fun S => expect μ (Eff.unfoldN step k S) fun l => ψ (S, l) := (h.random.unfoldN k).measurable_expect hψ
  have hm : ∀ j, Measurable fun l : List ℝ => ψ (l.getD j 0, l.drop (j + 1)) := fun j => hψ.comp ((measurable_getD j).prodMk (measurable_dropList (j + 1)))
  intro j
  induction j with
  | zero =>
    intro S
    rw [show 0 + 1 + k = k + 1 by omega, expect_unfoldN_succ h.random k S (hm 0)]
    simp only [List.getD_cons_zero, List.drop_succ_cons, List.drop_zero]
    rw [h.law S (fun x => expect μ (Eff.unfoldN step k x.1) fun l => ψ (x.2, l))
      (((h.random.unfoldN k).comp measurable_fst).measurable_expect (φ := fun q : (ℝ × ℝ) × List ℝ => ψ (q.1.2, q.2)) (by fun_prop)), sumLaw_one]
  | succ j ih =>
    intro S
    rw [show j + 1 + 1 + k = j + 1 + k + 1 by omega, expect_unfoldN_succ h.random _ S (hm (j + 1))]
    simp only [List.getD_cons_succ, List.drop_succ_cons]
    have e : ∀ S', expect μ (Eff.unfoldN step (j + 1 + k) S') (fun l => ψ (l.getD j 0, l.drop (j + 1))) = _ := ih
    simp only [e]
    have m1 : Measurable fun p : (ℝ × ℝ) × ℝ => expect μ (Eff.unfoldN step k (p.1.1 * Real.exp p.2)) fun l => ψ (p.1.1 * Real.exp p.2, l) :=
      hF.comp (by fun_prop : Measurable fun p : (ℝ × ℝ) × ℝ => p.1.1 * Real.exp p.2)
    rw [h.law S (fun x => ∫⁻ y, expect μ (Eff.unfoldN step k (x.1 * Real.exp y)) (fun l => ψ (x.1 * Real.exp y, l)) ∂sumLaw Q (j + 1)) m1.lintegral_prod_right']
    have m3 : Measurable fun y => expect μ (Eff.unfoldN step k (S * Real.exp y)) fun l => ψ (S * Real.exp y, l) :=
      hF.comp (by fun_prop : Measurable fun y : ℝ => S * Real.exp y)
    rw [show sumLaw Q (j + 1 + 1) = Q ∗ sumLaw Q (j + 1) from rfl, Measure.lintegral_conv m3]
    simp only [Real.exp_add, mul_assoc]

/-- The thinned path. -/
theorem expect_thin (h : LogStep μ step Q) {j : ℕ} {step' : ℝ → Eff G' (ℝ × ℝ)} (h' : LogStep μ' step' (sumLaw Q (j + 1))) : ∀ (n : ℕ) (S : ℝ) (Φ : List ℝ → ℝ≥0∞),
    Measurable Φ → expect μ (Eff.unfoldN step ((j + 1) * n) S) (fun l => Φ (thin (j + 1) n l)) = expect μ' (Eff.unfoldN step' n S) Φ
  | 0, S, Φ, _ => by
    simp only [mul_zero, Eff.unfoldN, expect_pure, thin, List.range_zero, List.map_nil]
  | n + 1, S, Φ, hΦ => by
    rw [show (j + 1) * (n + 1) = j + 1 + (j + 1) * n by ring]
    simp only [thin_succ]
    have hψ : Measurable fun p : ℝ × List ℝ => Φ (p.1 :: thin (j + 1) n p.2) :=
      hΦ.comp (measurable_cons.comp (measurable_fst.prodMk ((measurable_thin _ _).comp measurable_snd)))
    rw [h.expect_block hψ ((j + 1) * n) j S, expect_unfoldN_succ h'.random n S hΦ]
    have m2 : Measurable fun x : ℝ × ℝ => expect μ' (Eff.unfoldN step' n x.1) fun l => Φ (x.2 :: l) :=
      ((h'.random.unfoldN n).comp measurable_fst).measurable_expect (φ := fun q : (ℝ × ℝ) × List ℝ => Φ (q.1.2 :: q.2))
        (hΦ.comp (measurable_cons.comp ((measurable_snd.comp measurable_fst).prodMk measurable_snd)))
    rw [h'.law S _ m2]
    refine lintegral_congr fun y => ?_
    exact expect_thin h h' n _ (fun l => Φ (S * Real.exp y :: l)) (hΦ.comp (measurable_cons.comp (measurable_const.prodMk measurable_id)))

/-- The law of a simulated path, as seen on every `m`-th date. -/
theorem law_thin (h : LogStep μ step Q) {m : ℕ} (hm0 : 0 < m) {step' : ℝ → Eff G' (ℝ × ℝ)} (h' : LogStep μ' step' (sumLaw Q m)) {a : G → G} (ha : MeasurePreserving a μ μ)
    {a' : G' → G'} (ha' : MeasurePreserving a' μ' μ') {n : ℕ} {S : ℝ} {X : ℕ → G → ℝ} (hX : SimulatedPath (Eff.after a (Eff.unfoldN step (m * n) S)) (m * n) X)
    {X' : ℕ → G' → ℝ} (hX' : SimulatedPath (Eff.after a' (Eff.unfoldN step' n S)) n X') {Φ : List ℝ → ℝ≥0∞} (hΦ : Measurable Φ) :
    ∫⁻ s, Φ ((List.range n).map fun i => X (m * (i + 1) - 1) s) ∂μ = ∫⁻ s, Φ ((List.range n).map fun i => X' i s) ∂μ' := by
  obtain ⟨j, rfl⟩ : ∃ j, m = j + 1 := ⟨m - 1, by omega⟩
  obtain ⟨l, -, -, hrun, hE⟩ := path_exists h.random ha ((j + 1) * n) S
  obtain ⟨l', -, -, hrun', hE'⟩ := path_exists h'.random ha' n S
  have e' : ∀ s, (List.range n).map (fun i => X' i s) = l' s := by
    intro s
    obtain ⟨s1, r1⟩ := hX' s
    obtain ⟨s2, r2⟩ := hrun' s
    rw [r1] at r2
    simpa using congrArg Prod.fst r2
  have e : ∀ s, (List.range n).map (fun i => X ((j + 1) * (i + 1) - 1) s) = thin (j + 1) n (l s) := by
    intro s
    obtain ⟨s1, r1⟩ := hX s
    obtain ⟨s2, r2⟩ := hrun s
    rw [r1] at r2
    have r3 : (List.range ((j + 1) * n)).map (fun i => X i s) = l s := by simpa using congrArg Prod.fst r2
    unfold thin
    refine List.map_congr_left fun i hi => ?_
    have hi' : (j + 1) * (i + 1) - 1 < (j + 1) * n := by
      have h1 : (j + 1) * (i + 1) ≤ (j + 1) * n := Nat.mul_le_mul_left _ (List.mem_range.mp hi)
      have h2 : 0 < (j + 1) * (i + 1) := by positivity
      omega
    rw [← r3]
    simp [hi']
  simp only [e, e']
  rw [hE (fun l => Φ (thin (j + 1) n l)) (hΦ.comp (measurable_thin _ _)), hE' Φ hΦ, h.expect_thin h' n S Φ hΦ]

end LogStep
end Verif
