import Verif.Model.Interpolation
import Verif.Spec.InterpSpec
import Mathlib.Tactic.Linarith
import Mathlib.Tactic.IntervalCases
import Mathlib.Tactic.LinearCombination
import Mathlib.Tactic.FieldSimp
import Mathlib.Algebra.Order.Group.MinMax

/-!
# Properties C44 and C45: interpolation
-/

namespace Verif
open Spec

namespace Interp

theorem vget_ok {α : Type} {l : List α} {i : ℕ} {a : α} (h : l[i]? = some a) : vget l i = .ok a := by
  simp [vget, h]

theorem vfront_ok {α : Type} {l : List α} {a : α} (h : l[0]? = some a) : vfront l = .ok a := by
  rw [vfront, List.head?_eq_getElem?, h]

theorem vback_ok {α : Type} {l : List α} {a : α} (h : l[l.length - 1]? = some a) : vback l = .ok a := by
  rw [vback, List.getLast?_eq_getElem?, h]

/-- The node with a given number. -/
theorem node (xs ys : List ℝ) (h : Nodes xs ys) {i : ℕ} (hi : i < xs.length) :
    NodeAt xs ys i (xs[i]) (ys[i]'(h.sameLength ▸ hi)) :=
  ⟨List.getElem?_eq_getElem hi, List.getElem?_eq_getElem _⟩

theorem length_pos {xs ys : List ℝ} (h : Nodes xs ys) : 0 < xs.length := List.length_pos_iff.mpr h.nonempty

theorem lt_of_lt {xs ys : List ℝ} (h : Nodes xs ys) {i j : ℕ} (hi : i < xs.length) (hj : j < xs.length)
    (hij : i < j) : xs[i] < xs[j] :=
  h.increasing i j _ _ hij (List.getElem?_eq_getElem hi) (List.getElem?_eq_getElem hj)

theorem le_of_le {xs ys : List ℝ} (h : Nodes xs ys) {i j : ℕ} (hi : i < xs.length) (hj : j < xs.length)
    (hij : i ≤ j) : xs[i] ≤ xs[j] := by
  rcases hij.eq_or_lt with rfl | h'
  · exact le_rfl
  · exact (lt_of_lt h hi hj h').le

/-- The cases of `linear`. -/
theorem linear_cases {xs ys : List ℝ} (h : Nodes xs ys) (x : ℝ) :
    linear xs ys x = if x ≤ xs[0]'(length_pos h) then
        .ok (ys[0]'(h.sameLength ▸ length_pos h))
      else if xs[xs.length - 1]'(by have := length_pos h; omega) ≤ x then
        .ok (ys[xs.length - 1]'(by have := length_pos h; rw [h.sameLength]; omega))
      else linearScan xs ys x (xs.length - 1) 1 := by
  have hp := length_pos h
  have n0 := node xs ys h hp
  have n1 := node xs ys h (i := xs.length - 1) (by omega)
  rw [linear, vfront_ok n0.1, vback_ok n1.1]
  simp only [Res.bind_ok, Fl.le_real, Fl.ge_real]
  have e := n1.2
  generalize ys[xs.length - 1]'(by rw [h.sameLength]; omega) = w at e
  rw [← h.sameLength] at e
  rw [vfront_ok n0.2, vback_ok e]

theorem linearScan_spec {xs ys : List ℝ} (h : Nodes xs ys) {x : ℝ} : ∀ (todo i : ℕ), todo + i = xs.length → 1 ≤ i →
    (hi : i - 1 < xs.length) → xs[i - 1] ≤ x → x < xs[xs.length - 1]'(by omega) →
    ∃ k x₁ y₁ x₂ y₂, NodeAt xs ys k x₁ y₁ ∧ NodeAt xs ys (k + 1) x₂ y₂ ∧ x₁ ≤ x ∧ x < x₂ ∧
      linearScan xs ys x todo i = .ok (line x₁ y₁ x₂ y₂ x)
  | 0, i, h1, h2, hi, h3, h4 => by
    exfalso
    have e : i - 1 = xs.length - 1 := by omega
    simp only [e] at h3
    linarith
  | todo + 1, i, h1, h2, hi, h3, h4 => by
    have hi' : i < xs.length := by omega
    have n1 := node xs ys h hi
    have n2 := node xs ys h hi'
    simp only [linearScan, vget_ok n2.1, vget_ok n1.1, vget_ok n2.2, vget_ok n1.2, Res.bind_ok, Fl.lt_real]
    by_cases hx : x < xs[i]
    · rw [if_pos hx]
      have e : i - 1 + 1 = i := by omega
      exact ⟨i - 1, _, _, _, _, n1, e.symm ▸ n2, h3, hx, rfl⟩
    · rw [if_neg hx]
      exact linearScan_spec h todo (i + 1) (by omega) (by omega) (by simpa using hi') (by simpa using not_lt.mp hx) h4

/-- Every argument is to the left, to the right or in exactly one interval; and `linear` returns. -/
theorem linear_ok {xs ys : List ℝ} (h : Nodes xs ys) (x : ℝ) :
    (∃ x₀ y₀, NodeAt xs ys 0 x₀ y₀ ∧ x ≤ x₀ ∧ linear xs ys x = .ok y₀) ∨
    (∃ x₁ y₁, NodeAt xs ys (xs.length - 1) x₁ y₁ ∧ x₁ ≤ x ∧ linear xs ys x = .ok y₁) ∨
    ∃ k x₁ y₁ x₂ y₂, NodeAt xs ys k x₁ y₁ ∧ NodeAt xs ys (k + 1) x₂ y₂ ∧ x₁ ≤ x ∧ x < x₂ ∧
      linear xs ys x = .ok (line x₁ y₁ x₂ y₂ x) := by
  have hp := length_pos h
  rw [linear_cases h]
  split
  · rename_i hx
    exact .inl ⟨_, _, node xs ys h hp, hx, rfl⟩
  · rename_i hx
    split
    · rename_i hx'
      exact .inr (.inl ⟨_, _, node xs ys h (by omega), hx', rfl⟩)
    · rename_i hx'
      exact .inr (.inr (linearScan_spec h _ 1 (by omega) le_rfl (by simpa using hp) (by simpa using (not_le.mp hx).le)
        (not_le.mp hx')))

theorem _root_.Verif.Spec.NodeAt.unique {xs ys : List ℝ} {i : ℕ} {x y x' y' : ℝ} (h : NodeAt xs ys i x y) (h' : NodeAt xs ys i x' y') :
    x = x' ∧ y = y' := by
  obtain ⟨h1, h2⟩ := h
  obtain ⟨h3, h4⟩ := h'
  rw [h1] at h3; rw [h2] at h4
  exact ⟨Option.some.inj h3, Option.some.inj h4⟩

theorem _root_.Verif.Spec.NodeAt.lt_length {xs ys : List ℝ} {i : ℕ} {x y : ℝ} (h : NodeAt xs ys i x y) : i < xs.length :=
  (List.getElem?_eq_some_iff.mp h.1).1

theorem _root_.Verif.Spec.NodeAt.lt {xs ys : List ℝ} (hn : Nodes xs ys) {i j : ℕ} {x y x' y' : ℝ} (h : NodeAt xs ys i x y)
    (h' : NodeAt xs ys j x' y') (hij : i < j) : x < x' := hn.increasing i j x x' hij h.1 h'.1

theorem _root_.Verif.Spec.NodeAt.le {xs ys : List ℝ} (hn : Nodes xs ys) {i j : ℕ} {x y x' y' : ℝ} (h : NodeAt xs ys i x y)
    (h' : NodeAt xs ys j x' y') (hij : i ≤ j) : x ≤ x' := by
  rcases hij.eq_or_lt with rfl | hlt
  · exact (h.unique h').1.le
  · exact (h.lt hn h' hlt).le

theorem _root_.Verif.Spec.NodeAt.index_lt {xs ys : List ℝ} (hn : Nodes xs ys) {i j : ℕ} {x y x' y' : ℝ} (h : NodeAt xs ys i x y)
    (h' : NodeAt xs ys j x' y') (hx : x < x') : i < j := by
  by_contra hc
  exact absurd (h'.le hn h (not_lt.mp hc)) (not_le.mpr hx)

theorem line_left (x₁ y₁ x₂ y₂ : ℝ) : line x₁ y₁ x₂ y₂ x₁ = y₁ := by simp [line]

theorem line_right {x₁ x₂ : ℝ} (h : x₁ < x₂) (y₁ y₂ : ℝ) : line x₁ y₁ x₂ y₂ x₂ = y₂ := by
  have : x₂ - x₁ ≠ 0 := by linarith
  rw [line]
  field_simp
  ring

theorem line_eq {x₁ x₂ : ℝ} (h : x₁ < x₂) (y₁ y₂ t : ℝ) : line x₁ y₁ x₂ y₂ (x₁ + t * (x₂ - x₁)) = y₁ + t * (y₂ - y₁) := by
  have : x₂ - x₁ ≠ 0 := by linarith
  rw [line]
  field_simp
  ring

/-- Values at nodes and on closed intervals. -/
theorem linear_on {xs ys : List ℝ} (h : Nodes xs ys) {i : ℕ} {x₁ y₁ x₂ y₂ x : ℝ} (n1 : NodeAt xs ys i x₁ y₁)
    (n2 : NodeAt xs ys (i + 1) x₂ y₂) (h1 : x₁ ≤ x) (h2 : x ≤ x₂) : linear xs ys x = .ok (line x₁ y₁ x₂ y₂ x) := by
  have h12 := n1.lt h n2 (by omega)
  obtain ⟨a, b, n, hx, e⟩ | ⟨a, b, n, hx, e⟩ | ⟨k, a, b, a', b', n, n', ha, ha', e⟩ := linear_ok h x
  · rw [e]
    have : x = x₁ := le_antisymm (hx.trans (n.le h n1 (Nat.zero_le _))) h1
    subst this
    have hi : i = 0 := by
      by_contra hc
      have := n.lt h n1 (by omega)
      linarith
    subst hi
    rw [line_left, (n.unique n1).2]
  · rw [e]
    have hl := n2.lt_length
    have : x = x₂ := le_antisymm h2 ((n2.le h n (by omega)).trans hx)
    subst this
    have hi : i + 1 = xs.length - 1 := by
      by_contra hc
      have := n2.lt h n (by omega)
      linarith
    rw [← hi] at n
    rw [line_right h12, (n.unique n2).2]
  · rw [e]
    have hk : i < k + 1 := n1.index_lt h n' (by linarith)
    rcases Nat.lt_or_ge i k with hlt | hge
    · have hle := n2.le h n (by omega)
      have : x = x₂ := by linarith
      subst this
      have ha : a = x := by linarith
      subst ha
      have : k = i + 1 := by
        by_contra hc
        have := n2.lt h n (by omega)
        linarith
      subst this
      rw [line_left, line_right h12, (n.unique n2).2]
    · have : k = i := by omega
      subst this
      rw [(n.unique n1).1, (n.unique n1).2, (n'.unique n2).1, (n'.unique n2).2]

end Interp

/-! ## C44 -/

/-- **C44.** On a strictly increasing grid linear interpolation returns for every real argument, and
the function it computes is the piecewise linear interpolant. -/
theorem C44_returns {xs ys : List ℝ} (h : Nodes xs ys) :
    ∃ f : ℝ → ℝ, PiecewiseLinear xs ys f ∧ ∀ x, Interp.linear xs ys x = .ok (f x) := by
  have hex : ∀ x, ∃ y, Interp.linear xs ys x = .ok y := by
    intro x
    obtain ⟨a, b, n, hx, e⟩ | ⟨a, b, n, hx, e⟩ | ⟨k, a, b, a', b', n, n', ha, ha', e⟩ := Interp.linear_ok h x
    exacts [⟨_, e⟩, ⟨_, e⟩, ⟨_, e⟩]
  choose f hf using hex
  refine ⟨f, ⟨⟨?_, ?_⟩, ?_⟩, hf⟩
  · intro x₀ y₀ n x hx
    have := Interp.linear_cases h x
    have n0 := Interp.node xs ys h (Interp.length_pos h)
    obtain ⟨e1, e2⟩ := n.unique n0
    rw [if_pos (by rw [← e1]; exact hx), hf, ← e2] at this
    exact Res.ok.inj this
  · intro x₁ y₁ n x hx
    have := Interp.linear_cases h x
    have hp := Interp.length_pos h
    have n0 := Interp.node xs ys h (i := xs.length - 1) (by omega)
    obtain ⟨e1, e2⟩ := n.unique n0
    split at this
    · rename_i hx'
      rw [hf] at this
      rw [Res.ok.inj this]
      have nz := Interp.node xs ys h hp
      have : xs.length - 1 = 0 := by
        by_contra hc
        have := Interp.lt_of_lt h hp (j := xs.length - 1) (by omega) (by omega)
        linarith
      rw [this] at n
      exact (nz.unique n).2
    · rw [if_pos (by rw [← e1]; exact hx), hf, ← e2] at this
      exact Res.ok.inj this
  · intro i x₁ y₁ x₂ y₂ n1 n2 t h0 h1
    have h12 := n1.lt h n2 (by omega)
    have := Interp.linear_on h n1 n2 (x := x₁ + t * (x₂ - x₁)) (by nlinarith) (by nlinarith)
    rw [hf, Interp.line_eq h12] at this
    exact Res.ok.inj this

/-- The piecewise linear interpolant is unique: `C44_returns` determines every result. -/
theorem C44_unique {xs ys : List ℝ} (h : Nodes xs ys) {f g : ℝ → ℝ} (hf : PiecewiseLinear xs ys f)
    (hg : PiecewiseLinear xs ys g) : f = g := by
  funext x
  obtain ⟨a, b, n, hx, e⟩ | ⟨a, b, n, hx, e⟩ | ⟨k, a, b, a', b', n, n', ha, ha', e⟩ := Interp.linear_ok h x
  · rw [hf.left _ _ n _ hx, hg.left _ _ n _ hx]
  · rw [hf.right _ _ n _ hx, hg.right _ _ n _ hx]
  · have h12 := n.lt h n' (by omega)
    have hd : a' - a ≠ 0 := by linarith
    have e : x = a + (x - a) / (a' - a) * (a' - a) := by field_simp; ring
    have h0 : 0 ≤ (x - a) / (a' - a) := div_nonneg (by linarith) (by linarith)
    have h1 : (x - a) / (a' - a) ≤ 1 := by rw [div_le_one (by linarith)]; linarith
    rw [e, hf.between k _ _ _ _ n n' _ h0 h1, hg.between k _ _ _ _ n n' _ h0 h1]

/-- **C44.** At a node the result is the value of the node. -/
theorem C44_nodes {xs ys : List ℝ} (h : Nodes xs ys) {i : ℕ} {x y : ℝ} (n : NodeAt xs ys i x y) :
    Interp.linear xs ys x = .ok y := by
  obtain ⟨f, hf, hl⟩ := C44_returns h
  rw [hl]
  congr 1
  have hi := n.lt_length
  by_cases hi' : i + 1 < xs.length
  · have := hf.between i _ _ _ _ n (Interp.node xs ys h hi') 0 le_rfl zero_le_one
    simpa using this
  · have : i = xs.length - 1 := by omega
    subst this
    exact hf.right _ _ n _ le_rfl

/-- **C44.** Between two neighbouring nodes the result lies between their values. -/
theorem C44_between {xs ys : List ℝ} (h : Nodes xs ys) {i : ℕ} {x₁ y₁ x₂ y₂ x : ℝ} (n1 : NodeAt xs ys i x₁ y₁)
    (n2 : NodeAt xs ys (i + 1) x₂ y₂) (h1 : x₁ ≤ x) (h2 : x ≤ x₂) :
    ∃ y, Interp.linear xs ys x = .ok y ∧ min y₁ y₂ ≤ y ∧ y ≤ max y₁ y₂ := by
  refine ⟨_, Interp.linear_on h n1 n2 h1 h2, ?_⟩
  have h12 := n1.lt h n2 (by omega)
  have hd : 0 < x₂ - x₁ := by linarith
  have e : Interp.line x₁ y₁ x₂ y₂ x = (1 - (x - x₁) / (x₂ - x₁)) * y₁ + (x - x₁) / (x₂ - x₁) * y₂ := by
    rw [Interp.line]; field_simp; ring
  have h0 : 0 ≤ (x - x₁) / (x₂ - x₁) := div_nonneg (by linarith) hd.le
  have h1 : (x - x₁) / (x₂ - x₁) ≤ 1 := by rw [div_le_one hd]; linarith
  rw [e]
  generalize (x - x₁) / (x₂ - x₁) = t at h0 h1
  constructor
  · nlinarith [min_le_left y₁ y₂, min_le_right y₁ y₂]
  · nlinarith [le_max_left y₁ y₂, le_max_right y₁ y₂]

/-- **C44.** Affine data are reproduced exactly within the grid. -/
theorem C44_affine {xs ys : List ℝ} (h : Nodes xs ys) {a b : ℝ}
    (hd : ∀ i x y, NodeAt xs ys i x y → y = a * x + b) {x₀ y₀ x₁ y₁ x : ℝ} (n0 : NodeAt xs ys 0 x₀ y₀)
    (n1 : NodeAt xs ys (xs.length - 1) x₁ y₁) (h0 : x₀ ≤ x) (h1 : x ≤ x₁) :
    Interp.linear xs ys x = .ok (a * x + b) := by
  obtain ⟨c, d, n, hx, e⟩ | ⟨c, d, n, hx, e⟩ | ⟨k, c, d, c', d', n, n', ha, ha', e⟩ := Interp.linear_ok h x
  · rw [e, hd _ _ _ n, (n.unique n0).1, le_antisymm h0 ((n.unique n0).1 ▸ hx)]
  · rw [e, hd _ _ _ n, (n.unique n1).1, le_antisymm h1 ((n.unique n1).1 ▸ hx)]
  · rw [e, Interp.line, hd _ _ _ n, hd _ _ _ n']
    have : c' - c ≠ 0 := by linarith
    congr 1
    field_simp
    ring

/-- **C44.** For non-decreasing data the result is a non-decreasing function of the argument. -/
theorem C44_monotone {xs ys : List ℝ} (h : Nodes xs ys)
    (hm : ∀ i j x y x' y', i ≤ j → NodeAt xs ys i x y → NodeAt xs ys j x' y' → y ≤ y') {u v : ℝ} (huv : u ≤ v) :
    ∃ a b, Interp.linear xs ys u = .ok a ∧ Interp.linear xs ys v = .ok b ∧ a ≤ b := by
  have lb : ∀ {c d c' d' x : ℝ}, c ≤ x → x < c' → d ≤ d' → d ≤ Interp.line c d c' d' x ∧ Interp.line c d c' d' x ≤ d' := by
    intro c d c' d' x h1 h2 h3
    have hd : 0 < c' - c := by linarith
    have h0 : 0 ≤ (x - c) / (c' - c) := div_nonneg (by linarith) hd.le
    have h1 : (x - c) / (c' - c) ≤ 1 := by rw [div_le_one hd]; linarith
    have e : Interp.line c d c' d' x = d + (x - c) / (c' - c) * (d' - d) := by rw [Interp.line]; ring
    rw [e]
    constructor <;> nlinarith
  obtain ⟨c, d, n, hx, e⟩ | ⟨c, d, n, hx, e⟩ | ⟨k, c, d, c', d', n, n', ha, ha', e⟩ := Interp.linear_ok h u
  · obtain ⟨p, q, m, hy, e2⟩ | ⟨p, q, m, hy, e2⟩ | ⟨l, p, q, p', q', m, m', hb, hb', e2⟩ := Interp.linear_ok h v
    · exact ⟨_, _, e, e2, (n.unique m).2.le⟩
    · exact ⟨_, _, e, e2, hm _ _ _ _ _ _ (Nat.zero_le _) n m⟩
    · exact ⟨_, _, e, e2, (hm _ _ _ _ _ _ (Nat.zero_le _) n m).trans (lb hb hb' (hm _ _ _ _ _ _ (by omega) m m')).1⟩
  · obtain ⟨p, q, m, hy, e2⟩ | ⟨p, q, m, hy, e2⟩ | ⟨l, p, q, p', q', m, m', hb, hb', e2⟩ := Interp.linear_ok h v
    · have : xs.length - 1 = 0 := by
        by_contra hc
        have := m.lt h n (by omega)
        linarith
      rw [this] at n
      exact ⟨_, _, e, e2, (n.unique m).2.le⟩
    · exact ⟨_, _, e, e2, (n.unique m).2.le⟩
    · have hl := m'.lt_length
      have := m'.le h n (by omega)
      linarith
  · have hk := hm _ _ _ _ _ _ (by omega) n n'
    have hl := n'.lt_length
    obtain ⟨p, q, m, hy, e2⟩ | ⟨p, q, m, hy, e2⟩ | ⟨l, p, q, p', q', m, m', hb, hb', e2⟩ := Interp.linear_ok h v
    · have h1 := m.le h n (Nat.zero_le _)
      have h2 : k = 0 := by
        by_contra hc
        have := m.lt h n (by omega)
        linarith
      have h3 : u = c := by linarith
      subst h2
      subst h3
      rw [Interp.line_left] at e
      exact ⟨_, _, e, e2, (n.unique m).2.le⟩
    · exact ⟨_, _, e, e2, (lb ha ha' hk).2.trans (hm _ _ _ _ _ _ (by omega) n' m)⟩
    · have hkl : k < l + 1 := n.index_lt h m' (by linarith)
      have hl := hm _ _ _ _ _ _ (by omega) m m'
      rcases Nat.lt_or_ge k l with h1 | h1
      · exact ⟨_, _, e, e2, (lb ha ha' hk).2.trans ((hm _ _ _ _ _ _ (by omega) n' m).trans (lb hb hb' hl).1)⟩
      · have : k = l := by omega
        subst this
        obtain ⟨rfl, rfl⟩ := n.unique m
        obtain ⟨rfl, rfl⟩ := n'.unique m'
        refine ⟨_, _, e, e2, ?_⟩
        rw [Interp.line, Interp.line]
        have hd : 0 < c' - c := by linarith
        have : (u - c) * (d' - d) ≤ (v - c) * (d' - d) := mul_le_mul_of_nonneg_right (by linarith) (by linarith)
        have := div_le_div_of_nonneg_right this hd.le
        linarith

/-! ### C44 in double arithmetic -/

section
variable {F : Type} [Fl F] [Add F] [Sub F] [Mul F] [Div F]

theorem Interp.linearScan_found {xs ys : List F} (hl : ys.length = xs.length) {x : F} : ∀ (todo i : ℕ), todo + i = xs.length →
    ∀ (j : ℕ) (a : F), i ≤ j → xs[j]? = some a → Fl.lt x a = true → 1 ≤ i →
    ∃ y, Interp.linearScan xs ys x todo i = .ok y
  | 0, i, h1, j, a, h2, h3, h4, _ => by
    have := (List.getElem?_eq_some_iff.mp h3).1
    omega
  | todo + 1, i, h1, j, a, h2, h3, h4, h5 => by
    have g1 : xs[i]? = some (xs[i]'(by omega)) := List.getElem?_eq_getElem _
    have g2 : xs[i - 1]? = some (xs[i - 1]'(by omega)) := List.getElem?_eq_getElem _
    have g3 : ys[i]? = some (ys[i]'(by omega)) := List.getElem?_eq_getElem _
    have g4 : ys[i - 1]? = some (ys[i - 1]'(by omega)) := List.getElem?_eq_getElem _
    simp only [Interp.linearScan, Interp.vget_ok g1, Interp.vget_ok g2, Interp.vget_ok g3, Interp.vget_ok g4, Res.bind_ok]
    split
    · exact ⟨_, rfl⟩
    · rename_i hx
      refine Interp.linearScan_found hl todo (i + 1) (by omega) j a ?_ h3 h4 (by omega)
      rcases h2.eq_or_lt with rfl | h
      · rw [g1] at h3
        rw [Option.some.inj h3] at hx
        exact absurd h4 hx
      · omega

theorem Interp.linearScan_none {xs ys : List F} {x : F} (hx : ∀ a, Fl.lt x a = false) : ∀ (todo i : ℕ), todo + i = xs.length →
    (Interp.linearScan xs ys x todo i).Throws .runtimeError
  | 0, i, _ => by simp [Interp.linearScan]
  | todo + 1, i, h1 => by
    have g1 : xs[i]? = some (xs[i]'(by omega)) := List.getElem?_eq_getElem _
    simp only [Interp.linearScan, Interp.vget_ok g1, Res.bind_ok, hx]
    exact Interp.linearScan_none hx todo (i + 1) (by omega)

end

/-- **C44.** In double arithmetic with any rounding: on a non-empty grid without NaNs (sorted or not)
linear interpolation returns for every argument but NaN; for NaN it throws `runtime_error`. -/
theorem C44_double {R : Rounding} {xs ys : List (Dbl R)} (h0 : xs ≠ []) (hl : ys.length = xs.length)
    (hn : Dbl.nan ∉ xs) (x : Dbl R) :
    (x ≠ .nan → (Interp.linear xs ys x).IsOk) ∧ (x = .nan → (Interp.linear xs ys x).Throws .runtimeError) := by
  have hp : 0 < xs.length := List.length_pos_iff.mpr h0
  have g1 : xs[0]? = some (xs[0]'(by omega)) := List.getElem?_eq_getElem _
  have g2 : xs[xs.length - 1]? = some (xs[xs.length - 1]'(by omega)) := List.getElem?_eq_getElem _
  have g3 : ys[0]? = some (ys[0]'(by omega)) := List.getElem?_eq_getElem _
  have g4 : ys[ys.length - 1]? = some (ys[ys.length - 1]'(by omega)) := List.getElem?_eq_getElem _
  simp only [Interp.linear, Interp.vfront_ok g1, Interp.vback_ok g2, Interp.vfront_ok g3, Interp.vback_ok g4, Res.bind_ok]
  constructor
  · intro hx
    split
    · exact ⟨_, rfl⟩
    · rename_i h1
      split
      · exact ⟨_, rfl⟩
      · rename_i h2
        have hm : xs[xs.length - 1] ∈ xs := List.getElem_mem _
        have hm0 : xs[0] ∈ xs := List.getElem_mem _
        cases hb : xs[xs.length - 1] with
        | nan => exact absurd (hb ▸ hm) hn
        | num b =>
          cases ha : xs[0] with
          | nan => exact absurd (ha ▸ hm0) hn
          | num a =>
            cases x with
            | nan => exact absurd rfl hx
            | num x =>
              rw [hb] at h2 g2
              rw [ha] at h1
              rw [Dbl.ge_num, not_le] at h2
              rw [Dbl.le_num, not_le] at h1
              have : xs.length - 1 ≠ 0 := by
                intro hc
                rw [hc] at g2
                rw [g1, ha] at g2
                simp only [Option.some.injEq, Dbl.num.injEq] at g2
                subst g2
                exact absurd h1 (not_lt.mpr h2.le)
              exact Interp.linearScan_found hl _ 1 (by omega) (xs.length - 1) (.num b) (by omega) g2 (by simpa using h2) le_rfl
  · rintro rfl
    simp only [Dbl.nan_le, Dbl.nan_ge, Bool.false_eq_true, if_false]
    exact Interp.linearScan_none (by simp) _ _ (by omega)

/-! ## C45 -/

namespace Interp

theorem findLoop_spec {F L : Type} [Fl F] [LinearOrder L] {xs : List F} {x : F} (hn : xs.length ≤ UINT_MOD)
    {g : ℕ → F} (hg : ∀ i < xs.length, xs[i]? = some (g i)) {φ : ℕ → L} {ξ : L}
    (hφ : ∀ i j, i < j → j < xs.length → φ i < φ j)
    (hle : ∀ i < xs.length, (Fl.le (g i) x = true ↔ φ i ≤ ξ)) (hge : ∀ i < xs.length, (Fl.le x (g i) = true ↔ ξ ≤ φ i))
    (hlt : ∀ i < xs.length, (Fl.lt (g i) x = true ↔ φ i < ξ)) :
    ∀ (fuel low high : ℕ), low ≤ high → high < xs.length → high - low < fuel → φ low < ξ →
      (high + 1 < xs.length → ξ < φ (high + 1)) → (high + 1 = xs.length → ξ < φ high) →
      ∃ k, k + 1 < xs.length ∧ φ k ≤ ξ ∧ ξ ≤ φ (k + 1) ∧ findLoop xs x fuel low high = .ok k
  | 0, low, high, _, _, h3, _, _, _ => by omega
  | fuel + 1, low, high, h1, h2, h3, h4, h5, h6 => by
    have hmid : low + (high - low) / 2 + 1 < xs.length := by
      by_cases hh : high + 1 < xs.length
      · omega
      · have hh : high + 1 = xs.length := by omega
        have : low ≠ high := by
          rintro rfl
          exact absurd (h6 hh) (not_lt.mpr h4.le)
        omega
    have hlm : low ≤ low + (high - low) / 2 := by omega
    have hmh : low + (high - low) / 2 ≤ high := by omega
    have hmh' : low < high → low + (high - low) / 2 < high := by omega
    have e1 : (low + (high - low) / 2 + 1) % UINT_MOD = low + (high - low) / 2 + 1 := Nat.mod_eq_of_lt (by omega)
    simp only [findLoop, if_pos h1]
    generalize low + (high - low) / 2 = mid at *
    have v1 := vget_ok (hg mid (by omega))
    have v2 := vget_ok (hg (mid + 1) hmid)
    by_cases c1 : φ mid ≤ ξ
    · by_cases c2 : ξ ≤ φ (mid + 1)
      · refine ⟨mid, hmid, c1, c2, ?_⟩
        have : inInterval xs x mid = .ok true := by
          simp only [inInterval, v1, Res.bind_ok, e1, v2, if_pos ((hle mid (by omega)).mpr c1), (hge _ hmid).mpr c2, Res.pure_eq]
        rw [this]
        rfl
      · have hi : inInterval xs x mid = .ok false := by
          have : Fl.le x (g (mid + 1)) = false := by
            rw [← Bool.not_eq_true]; exact fun h => c2 ((hge _ hmid).mp h)
          simp only [inInterval, v1, Res.bind_ok, e1, v2, if_pos ((hle mid (by omega)).mpr c1), this, Res.pure_eq]
        have c3 : φ mid < ξ := (hφ mid (mid + 1) (by omega) hmid).trans (not_le.mp c2)
        rw [hi]
        simp only [Res.bind_ok, Bool.false_eq_true, if_false, v1, if_pos ((hlt mid (by omega)).mpr c3), e1]
        have hmlt : mid < high := by
          by_contra hc
          have : mid = high := by omega
          subst this
          exact c2 (h5 hmid).le
        exact findLoop_spec hn hg hφ hle hge hlt fuel (mid + 1) high (by omega) h2 (by omega) (not_le.mp c2) h5 h6
    · have hi : inInterval xs x mid = .ok false := by
        have : ¬ Fl.le (g mid) x = true := fun h => c1 ((hle mid (by omega)).mp h)
        simp only [inInterval, v1, Res.bind_ok, if_neg this, Res.pure_eq]
      have c3 : ¬ Fl.lt (g mid) x = true := fun h => c1 ((hlt mid (by omega)).mp h).le
      rw [hi]
      simp only [Res.bind_ok, Bool.false_eq_true, if_false, v1, if_neg c3]
      have hmlt : low < mid := by
        by_contra hc
        have : mid = low := by omega
        subst this
        exact c1 h4.le
      have e2 : upred mid = mid - 1 := by simp [upred]; omega
      rw [e2]
      refine findLoop_spec hn hg hφ hle hge hlt fuel low (mid - 1) (by omega) (by omega) (by omega) h4 ?_ (by omega)
      intro _
      rw [show mid - 1 + 1 = mid by omega]
      exact not_le.mp c1

theorem findInterval_spec {F L : Type} [Fl F] [LinearOrder L] {xs : List F} {x : F} (hn : xs.length ≤ UINT_MOD)
    {g : ℕ → F} (hg : ∀ i < xs.length, xs[i]? = some (g i)) {φ : ℕ → L} {ξ : L}
    (hφ : ∀ i j, i < j → j < xs.length → φ i < φ j)
    (hle : ∀ i < xs.length, (Fl.le (g i) x = true ↔ φ i ≤ ξ)) (hge : ∀ i < xs.length, (Fl.le x (g i) = true ↔ ξ ≤ φ i))
    (hlt : ∀ i < xs.length, (Fl.lt (g i) x = true ↔ φ i < ξ)) (h0 : 0 < xs.length) (h1 : φ 0 < ξ) (h2 : ξ < φ (xs.length - 1)) :
    ∃ k, k + 1 < xs.length ∧ φ k ≤ ξ ∧ ξ ≤ φ (k + 1) ∧ findInterval xs x = .ok k := by
  have e : (xs.length - 1) % UINT_MOD = xs.length - 1 := Nat.mod_eq_of_lt (by omega)
  rw [findInterval, e]
  refine findLoop_spec hn hg hφ hle hge hlt _ 0 (xs.length - 1) (by omega) (by omega) ?_ h1 (by omega) (fun _ => h2)
  have : UINT_MOD < 2 ^ 64 := by norm_num [UINT_MOD]
  omega

theorem quadLine_ok {F : Type} [Fl F] [Add F] [Sub F] [Mul F] [Div F] {xs ys : List F} (hn : xs.length ≤ UINT_MOD) (x : F) {k : ℕ}
    {x₁ y₁ x₂ y₂ : F} (hk : k + 1 < xs.length) (h1 : xs[k]? = some x₁) (h2 : ys[k]? = some y₁) (h3 : xs[k + 1]? = some x₂)
    (h4 : ys[k + 1]? = some y₂) : quadLine xs ys x k = .ok (line x₁ y₁ x₂ y₂ x) := by
  have e1 : (k + 1) % UINT_MOD = k + 1 := Nat.mod_eq_of_lt (by omega)
  simp only [quadLine, e1, vget_ok h1, vget_ok h2, vget_ok h3, vget_ok h4, Res.bind_ok, Res.pure_eq]

theorem quadParabola_ok {F : Type} [Fl F] [Add F] [Sub F] [Mul F] [Div F] {xs ys : List F} (hn : xs.length ≤ UINT_MOD) (x : F) {k : ℕ}
    {x₀ y₀ x₁ y₁ x₂ y₂ : F} (hk : k + 2 < xs.length) (h1 : xs[k]? = some x₀) (h2 : ys[k]? = some y₀) (h3 : xs[k + 1]? = some x₁)
    (h4 : ys[k + 1]? = some y₁) (h5 : xs[k + 2]? = some x₂) (h6 : ys[k + 2]? = some y₂) :
    quadParabola xs ys x (k + 1) = .ok (parabola x₀ y₀ x₁ y₁ x₂ y₂ x) := by
  have e1 : (k + 1 + 1) % UINT_MOD = k + 2 := Nat.mod_eq_of_lt (by omega)
  have e2 : upred (k + 1) = k := by simp [upred]
  simp only [quadParabola, e1, e2, vget_ok h1, vget_ok h2, vget_ok h3, vget_ok h4, vget_ok h5, vget_ok h6, Res.bind_ok, Res.pure_eq]

/-- The cases of `quadratic`. -/
theorem quadratic_ok {xs ys : List ℝ} (h : Nodes xs ys) (hn : xs.length ≤ UINT_MOD) (x : ℝ) :
    (∃ x₀ y₀, NodeAt xs ys 0 x₀ y₀ ∧ x ≤ x₀ ∧ quadratic xs ys x = .ok y₀) ∨
    (∃ x₁ y₁, NodeAt xs ys (xs.length - 1) x₁ y₁ ∧ x₁ ≤ x ∧ quadratic xs ys x = .ok y₁) ∨
    (∃ k x₁ y₁ x₂ y₂, NodeAt xs ys k x₁ y₁ ∧ NodeAt xs ys (k + 1) x₂ y₂ ∧ x₁ ≤ x ∧ x ≤ x₂ ∧ (k = 0 ∨ k + 2 = xs.length) ∧
      quadratic xs ys x = .ok (line x₁ y₁ x₂ y₂ x)) ∨
    ∃ k x₀ y₀ x₁ y₁ x₂ y₂, NodeAt xs ys k x₀ y₀ ∧ NodeAt xs ys (k + 1) x₁ y₁ ∧ NodeAt xs ys (k + 2) x₂ y₂ ∧
      x₁ ≤ x ∧ x ≤ x₂ ∧ k + 3 < xs.length ∧ quadratic xs ys x = .ok (parabola x₀ y₀ x₁ y₁ x₂ y₂ x) := by
  have hp := length_pos h
  have n0 := node xs ys h hp
  have n1 := node xs ys h (i := xs.length - 1) (by omega)
  have e := n1.2
  have ew : ∃ w, w = ys[xs.length - 1]'(by rw [h.sameLength]; omega) := ⟨_, rfl⟩
  obtain ⟨w, hw⟩ := ew
  rw [← hw] at e
  have e' := e
  rw [← h.sameLength] at e
  rw [quadratic, vfront_ok n0.1, vback_ok n1.1, vfront_ok n0.2, vback_ok e]
  simp only [Res.bind_ok, Fl.le_real, Fl.ge_real]
  by_cases h1 : x ≤ xs[0]
  · rw [if_pos h1]
    exact .inl ⟨_, _, n0, h1, rfl⟩
  rw [if_neg h1]
  by_cases h2 : xs[xs.length - 1] ≤ x
  · rw [if_pos h2]
    exact .inr (.inl ⟨_, _, ⟨n1.1, e'⟩, h2, rfl⟩)
  rw [if_neg h2]
  obtain ⟨k, hk1, hk2, hk3, hk4⟩ := findInterval_spec (xs := xs) (x := x) hn (g := fun i => xs.getD i 0)
    (fun i hi => by simp [List.getD, List.getElem?_eq_getElem hi]) (φ := fun i => xs.getD i 0) (ξ := x)
    (fun i j hij hj => by
      simpa [List.getD, List.getElem?_eq_getElem hj, List.getElem?_eq_getElem (hij.trans hj)] using
        lt_of_lt h (hij.trans hj) hj hij)
    (fun i hi => by simp) (fun i hi => by simp) (fun i hi => by simp) hp
    (by simpa [List.getD, List.getElem?_eq_getElem hp] using not_le.mp h1)
    (by simpa [List.getD, List.getElem?_eq_getElem (show xs.length - 1 < xs.length by omega)] using not_le.mp h2)
  have m1 := node xs ys h (i := k) (by omega)
  have m2 := node xs ys h (i := k + 1) hk1
  simp only [List.getD, m1.1, m2.1, Option.getD_some] at hk2 hk3
  rw [hk4]
  simp only [Res.bind_ok]
  have hs : subSize xs.length 2 = xs.length - 2 := by simp [subSize]; omega
  rw [hs]
  by_cases hk : k = 0 ∨ k = xs.length - 2
  · rw [if_pos hk, quadLine_ok hn x hk1 m1.1 m1.2 m2.1 m2.2]
    exact .inr (.inr (.inl ⟨k, _, _, _, _, m1, m2, hk2, hk3, by omega, rfl⟩))
  · rw [if_neg hk]
    obtain ⟨l, rfl⟩ : ∃ l, k = l + 1 := ⟨k - 1, by omega⟩
    have m0 := node xs ys h (i := l) (by omega)
    rw [quadParabola_ok hn x hk1 m0.1 m0.2 m1.1 m1.2 m2.1 m2.2]
    exact .inr (.inr (.inr ⟨l, _, _, _, _, _, _, m0, m1, m2, hk2, hk3, by omega, rfl⟩))

/-- The coefficients of the parabola through three points. -/
theorem parabola_coeffs {x₀ x₁ x₂ : ℝ} (h01 : x₀ < x₁) (h12 : x₁ < x₂) (y₀ y₁ y₂ : ℝ) :
    ∃ a b c : ℝ, a * x₀ ^ 2 + b * x₀ + c = y₀ ∧ a * x₁ ^ 2 + b * x₁ + c = y₁ ∧ a * x₂ ^ 2 + b * x₂ + c = y₂ ∧
      ∀ x, parabola x₀ y₀ x₁ y₁ x₂ y₂ x = a * x ^ 2 + b * x + c := by
  have d1 : x₀ - x₁ ≠ 0 := by linarith
  have d2 : x₀ - x₂ ≠ 0 := by linarith
  have d3 : x₁ - x₂ ≠ 0 := by linarith
  have d4 : x₁ - x₀ ≠ 0 := by linarith
  have d5 : x₂ - x₀ ≠ 0 := by linarith
  have d6 : x₂ - x₁ ≠ 0 := by linarith
  have key : ∀ x, parabola x₀ y₀ x₁ y₁ x₂ y₂ x =
      (y₀ / ((x₀ - x₁) * (x₀ - x₂)) + y₁ / ((x₁ - x₀) * (x₁ - x₂)) + y₂ / ((x₂ - x₀) * (x₂ - x₁))) * x ^ 2 +
      (-(y₀ * (x₁ + x₂) / ((x₀ - x₁) * (x₀ - x₂)) + y₁ * (x₀ + x₂) / ((x₁ - x₀) * (x₁ - x₂)) +
        y₂ * (x₀ + x₁) / ((x₂ - x₀) * (x₂ - x₁)))) * x +
      (y₀ * (x₁ * x₂) / ((x₀ - x₁) * (x₀ - x₂)) + y₁ * (x₀ * x₂) / ((x₁ - x₀) * (x₁ - x₂)) +
        y₂ * (x₀ * x₁) / ((x₂ - x₀) * (x₂ - x₁))) := by
    intro x
    rw [parabola]
    ring
  refine ⟨_, _, _, ?_, ?_, ?_, key⟩
  · rw [← key, parabola]; field_simp; ring
  · rw [← key, parabola]; field_simp; ring
  · rw [← key, parabola]; field_simp; ring

theorem parabola_at1 {x₀ x₁ x₂ : ℝ} (h01 : x₀ < x₁) (h12 : x₁ < x₂) (y₀ y₁ y₂ : ℝ) : parabola x₀ y₀ x₁ y₁ x₂ y₂ x₁ = y₁ := by
  obtain ⟨a, b, c, -, h, -, e⟩ := parabola_coeffs h01 h12 y₀ y₁ y₂
  rw [e, h]

theorem parabola_at2 {x₀ x₁ x₂ : ℝ} (h01 : x₀ < x₁) (h12 : x₁ < x₂) (y₀ y₁ y₂ : ℝ) : parabola x₀ y₀ x₁ y₁ x₂ y₂ x₂ = y₂ := by
  obtain ⟨a, b, c, -, -, h, e⟩ := parabola_coeffs h01 h12 y₀ y₁ y₂
  rw [e, h]

end Interp

/-- **C45.** At a node the result is the value of the node. -/
theorem C45_nodes {xs ys : List ℝ} (h : Nodes xs ys) (hn : xs.length ≤ 2 ^ 32) {i : ℕ} {x y : ℝ}
    (n : NodeAt xs ys i x y) : Interp.quadratic xs ys x = .ok y := by
  have hi := n.lt_length
  -- the only nodes in a closed interval of the grid are its ends
  have ends : ∀ {k a b a' b'}, NodeAt xs ys k a b → NodeAt xs ys (k + 1) a' b' → a ≤ x → x ≤ a' →
      (x = a ∧ y = b) ∨ (x = a' ∧ y = b') := by
    intro k a b a' b' m m' h1 h2
    rcases Nat.lt_or_ge i (k + 1) with hlt | hge
    · have : x = a := le_antisymm (n.le h m (by omega)) h1
      subst this
      have : i = k := by
        by_contra hc
        have := n.lt h m (by omega)
        linarith
      subst this
      exact .inl (n.unique m)
    · have : x = a' := le_antisymm h2 (m'.le h n hge)
      subst this
      have : i = k + 1 := by
        by_contra hc
        have := m'.lt h n (by omega)
        linarith
      subst this
      exact .inr (n.unique m')
  obtain ⟨a, b, m, hx, e⟩ | ⟨a, b, m, hx, e⟩ | ⟨k, a, b, a', b', m, m', ha, ha', -, e⟩ |
    ⟨k, a, b, a', b', a'', b'', m, m', m'', ha, ha', -, e⟩ := Interp.quadratic_ok h hn x
  · have : i = 0 := by
      by_contra hc
      have := m.lt h n (by omega)
      linarith
    subst this
    rw [e, (n.unique m).2]
  · have : i = xs.length - 1 := by
      by_contra hc
      have := n.lt h m (by omega)
      linarith
    subst this
    rw [e, (n.unique m).2]
  · have h12 := m.lt h m' (by omega)
    rw [e]
    obtain ⟨rfl, rfl⟩ | ⟨rfl, rfl⟩ := ends m m' ha ha'
    · rw [Interp.line_left]
    · rw [Interp.line_right h12]
  · have h12 := m.lt h m' (by omega)
    have h23 := m'.lt h m'' (by omega)
    rw [e]
    obtain ⟨rfl, rfl⟩ | ⟨rfl, rfl⟩ := ends m' m'' ha ha'
    · rw [Interp.parabola_at1 h12 h23]
    · rw [Interp.parabola_at2 h12 h23]

/-- **C45.** On a strictly increasing grid of 1 to 2^32 nodes quadratic interpolation returns for every
real argument (no exception, no read outside the arrays, no endless search).  The function computed
is constant outside the grid, linear in the first and last interval, and in every other interval it
is the parabola through its two ends and the node before. -/
theorem C45_returns {xs ys : List ℝ} (h : Nodes xs ys) (hn : xs.length ≤ 2 ^ 32) :
    ∃ f : ℝ → ℝ, (∀ x, Interp.quadratic xs ys x = .ok (f x)) ∧ Clamped xs ys f ∧ LinearOn xs ys 0 f ∧
      LinearOn xs ys (xs.length - 2) f ∧ ∀ i, i + 3 < xs.length → ParabolaOn xs ys i f := by
  have hex : ∀ x, ∃ y, Interp.quadratic xs ys x = .ok y := by
    intro x
    obtain ⟨a, b, m, hx, e⟩ | ⟨a, b, m, hx, e⟩ | ⟨k, a, b, a', b', m, m', ha, ha', -, e⟩ |
      ⟨k, a, b, a', b', a'', b'', m, m', m'', ha, ha', -, e⟩ := Interp.quadratic_ok h hn x
    exacts [⟨_, e⟩, ⟨_, e⟩, ⟨_, e⟩, ⟨_, e⟩]
  choose f hf using hex
  have fnode : ∀ {i x y}, NodeAt xs ys i x y → f x = y := fun n => Res.ok.inj ((hf _).symm.trans (C45_nodes h hn n))
  have hp := Interp.length_pos h
  -- in the open interval, which case applies is determined
  have lin : ∀ i, (i = 0 ∨ i + 2 = xs.length) → LinearOn xs ys i f := by
    intro i hi x₁ y₁ x₂ y₂ n1 n2 t t0 t1
    have h12 := n1.lt h n2 (by omega)
    rw [← Interp.line_eq h12 y₁ y₂ t]
    generalize hx : x₁ + t * (x₂ - x₁) = x
    have hx1 : x₁ ≤ x := by nlinarith
    have hx2 : x ≤ x₂ := by nlinarith
    rcases hx1.eq_or_lt with rfl | hx1
    · rw [fnode n1, Interp.line_left]
    rcases hx2.eq_or_lt with rfl | hx2
    · rw [fnode n2, Interp.line_right h12]
    have hl := n2.lt_length
    apply Res.ok.inj
    rw [← hf]
    obtain ⟨a, b, m, hx, e⟩ | ⟨a, b, m, hx, e⟩ | ⟨k, a, b, a', b', m, m', ha, ha', -, e⟩ |
      ⟨k, a, b, a', b', a'', b'', m, m', m'', ha, ha', hk, e⟩ := Interp.quadratic_ok h hn x
    · have := m.le h n1 (Nat.zero_le _); linarith
    · have := n2.le h m (by omega); linarith
    · have k1 : k < i + 1 := m.index_lt h n2 (by linarith)
      have k2 : i < k + 1 := n1.index_lt h m' (by linarith)
      have : k = i := by omega
      subst this
      rw [e, (m.unique n1).1, (m.unique n1).2, (m'.unique n2).1, (m'.unique n2).2]
    · have k1 : k + 1 < i + 1 := m'.index_lt h n2 (by linarith)
      have k2 : i < k + 2 := n1.index_lt h m'' (by linarith)
      omega
  refine ⟨f, hf, ⟨?_, ?_⟩, lin 0 (.inl rfl), ?_, ?_⟩
  · intro x₀ y₀ n x hx
    rcases hx.eq_or_lt with rfl | hx
    · exact fnode n
    apply Res.ok.inj
    rw [← hf]
    obtain ⟨a, b, m, hx', e⟩ | ⟨a, b, m, hx', e⟩ | ⟨k, a, b, a', b', m, m', ha, ha', -, e⟩ |
      ⟨k, a, b, a', b', a'', b'', m, m', m'', ha, ha', hk, e⟩ := Interp.quadratic_ok h hn x
    · rw [e, (m.unique n).2]
    · have := n.le h m (by omega); linarith
    · have := n.le h m (by omega); linarith
    · have := n.le h m' (by omega); linarith
  · intro x₁ y₁ n x hx
    rcases hx.eq_or_lt with rfl | hx
    · exact fnode n
    apply Res.ok.inj
    rw [← hf]
    obtain ⟨a, b, m, hx', e⟩ | ⟨a, b, m, hx', e⟩ | ⟨k, a, b, a', b', m, m', ha, ha', -, e⟩ |
      ⟨k, a, b, a', b', a'', b'', m, m', m'', ha, ha', hk, e⟩ := Interp.quadratic_ok h hn x
    · have := m.le h n (by omega); linarith
    · rw [e, (m.unique n).2]
    · have hl := m'.lt_length
      have := m'.le h n (by omega); linarith
    · have hl := m''.lt_length
      have := m''.le h n (by omega); linarith
  · by_cases h2 : 2 ≤ xs.length
    · exact lin _ (.inr (by omega))
    · intro x₁ y₁ x₂ y₂ n1 n2
      have := n2.lt_length
      omega
  · intro i hi x₀ y₀ x₁ y₁ x₂ y₂ n0 n1 n2
    have h01 := n0.lt h n1 (by omega)
    have h12 := n1.lt h n2 (by omega)
    obtain ⟨a, b, c, e0, e1, e2, ep⟩ := Interp.parabola_coeffs h01 h12 y₀ y₁ y₂
    refine ⟨a, b, c, e0, e1, e2, fun x hx1 hx2 => ?_⟩
    rcases hx1.eq_or_lt with rfl | hx1
    · rw [fnode n1, e1]
    rcases hx2.eq_or_lt with rfl | hx2
    · rw [fnode n2, e2]
    rw [← ep]
    apply Res.ok.inj
    rw [← hf]
    obtain ⟨a, b, m, hx', e⟩ | ⟨a, b, m, hx', e⟩ | ⟨k, a, b, a', b', m, m', ha, ha', hk, e⟩ |
      ⟨k, a, b, a', b', a'', b'', m, m', m'', ha, ha', hk, e⟩ := Interp.quadratic_ok h hn x
    · have := m.le h n1 (by omega); linarith
    · have := n2.le h m (by omega); linarith
    · have k1 : k < i + 2 := m.index_lt h n2 (by linarith)
      have k2 : i + 1 < k + 1 := n1.index_lt h m' (by linarith)
      omega
    · have k1 : k + 1 < i + 2 := m'.index_lt h n2 (by linarith)
      have k2 : i + 1 < k + 2 := n1.index_lt h m'' (by linarith)
      have : k = i := by omega
      subst this
      rw [e, (m.unique n0).1, (m.unique n0).2, (m'.unique n1).1, (m'.unique n1).2, (m''.unique n2).1, (m''.unique n2).2]

/-- **C45.** Quadratic data are reproduced exactly in all intervals but the first and the last. -/
theorem C45_quadratic {xs ys : List ℝ} (h : Nodes xs ys) (hn : xs.length ≤ 2 ^ 32) {a b c : ℝ}
    (hd : ∀ i x y, NodeAt xs ys i x y → y = a * x ^ 2 + b * x + c) {x₁ y₁ x₂ y₂ x : ℝ}
    (n1 : NodeAt xs ys 1 x₁ y₁) (n2 : NodeAt xs ys (xs.length - 2) x₂ y₂) (h1 : x₁ ≤ x) (h2 : x ≤ x₂) :
    Interp.quadratic xs ys x = .ok (a * x ^ 2 + b * x + c) := by
  have ends : ∀ {i p q}, NodeAt xs ys i p q → x = p → Interp.quadratic xs ys x = .ok (a * x ^ 2 + b * x + c) := by
    rintro i p q n rfl
    rw [C45_nodes h hn n, hd _ _ _ n]
  rcases h1.eq_or_lt with rfl | h1
  · exact ends n1 rfl
  rcases h2.eq_or_lt with rfl | h2
  · exact ends n2 rfl
  have hp := n1.lt_length
  obtain ⟨p, q, m, hx', e⟩ | ⟨p, q, m, hx', e⟩ | ⟨k, p, q, p', q', m, m', ha, ha', hk, e⟩ |
    ⟨k, p, q, p', q', p'', q'', m, m', m'', ha, ha', hk, e⟩ := Interp.quadratic_ok h hn x
  · exact absurd (m.le h n1 (by omega)) (by linarith)
  · exact absurd (n2.le h m (by omega)) (by linarith)
  · rcases hk with rfl | hk
    · exact absurd (m'.le h n1 (by omega)) (by linarith)
    · exact absurd (n2.le h m (by omega)) (by linarith)
  · have h12 := m.lt h m' (by omega)
    have h23 := m'.lt h m'' (by omega)
    rw [e, Interp.parabola, hd _ _ _ m, hd _ _ _ m', hd _ _ _ m'']
    have d1 : p - p' ≠ 0 := by linarith
    have d2 : p - p'' ≠ 0 := by linarith
    have d3 : p' - p'' ≠ 0 := by linarith
    have d4 : p' - p ≠ 0 := by linarith
    have d5 : p'' - p ≠ 0 := by linarith
    have d6 : p'' - p' ≠ 0 := by linarith
    congr 1
    field_simp
    ring

/-- **C45.** In double arithmetic with any rounding: on a strictly increasing grid of 1 to 2^32 numbers
(infinities allowed) quadratic interpolation returns for every argument but NaN. -/
theorem C45_double {R : Rounding} {xs ys : List (Dbl R)} (h0 : xs ≠ []) (hl : ys.length = xs.length)
    (hn : xs.length ≤ 2 ^ 32) (hnan : Dbl.nan ∉ xs)
    (hinc : ∀ (i j : ℕ) (a b : Dbl R), i < j → xs[i]? = some a → xs[j]? = some b → Fl.lt a b = true) (x : Dbl R) (hx : x ≠ .nan) :
    (Interp.quadratic xs ys x).IsOk := by
  have hp : 0 < xs.length := List.length_pos_iff.mpr h0
  have hnum : ∀ i (hi : i < xs.length), ∃ e : EReal, xs[i] = .num e := by
    intro i hi
    cases hv : xs[i] with
    | nan => exact absurd (hv ▸ List.getElem_mem hi) hnan
    | num e => exact ⟨e, rfl⟩
  have hφ : ∃ φ : ℕ → EReal, ∀ i, i < xs.length → xs[i]? = some (.num (φ i)) := by
    have : ∀ i, ∃ e : EReal, i < xs.length → xs[i]? = some (.num e) := by
      intro i
      by_cases hi : i < xs.length
      · obtain ⟨e, he⟩ := hnum i hi
        exact ⟨e, fun _ => by rw [List.getElem?_eq_getElem hi, he]⟩
      · exact ⟨0, fun h => absurd h hi⟩
    choose φ hφ using this
    exact ⟨φ, hφ⟩
  obtain ⟨φ, hφ⟩ := hφ
  cases x with
  | nan => exact absurd rfl hx
  | num x =>
    have g3 : ys[0]? = some (ys[0]'(by omega)) := List.getElem?_eq_getElem _
    have g4 : ys[ys.length - 1]? = some (ys[ys.length - 1]'(by omega)) := List.getElem?_eq_getElem _
    simp only [Interp.quadratic, Interp.vfront_ok (hφ 0 hp), Interp.vback_ok (hφ (xs.length - 1) (by omega)),
      Interp.vfront_ok g3, Interp.vback_ok g4, Res.bind_ok]
    split
    · exact ⟨_, rfl⟩
    split
    · exact ⟨_, rfl⟩
    rename_i h1 h2
    rw [Dbl.le_num, not_le] at h1
    rw [Dbl.ge_num, not_le] at h2
    obtain ⟨k, hk1, -, -, hk4⟩ := Interp.findInterval_spec (xs := xs) (x := .num x) hn (g := fun i => .num (φ i)) hφ (φ := φ) (ξ := x)
      (fun i j hij hj => by simpa using hinc i j _ _ hij (hφ i (hij.trans hj)) (hφ j hj))
      (fun i hi => by simp) (fun i hi => by simp) (fun i hi => by simp) hp h1 h2
    rw [hk4]
    simp only [Res.bind_ok]
    have hs : Interp.subSize xs.length 2 = xs.length - 2 := by simp [Interp.subSize]; omega
    rw [hs]
    have y1 : ys[k]? = some (ys[k]'(by omega)) := List.getElem?_eq_getElem _
    have y2 : ys[k + 1]? = some (ys[k + 1]'(by omega)) := List.getElem?_eq_getElem _
    split
    · rw [Interp.quadLine_ok hn _ hk1 (hφ k (by omega)) y1 (hφ (k + 1) hk1) y2]
      exact ⟨_, rfl⟩
    · rename_i hk
      obtain ⟨l, rfl⟩ : ∃ l, k = l + 1 := ⟨k - 1, by omega⟩
      have y0 : ys[l]? = some (ys[l]'(by omega)) := List.getElem?_eq_getElem _
      rw [Interp.quadParabola_ok hn _ hk1 (hφ l (by omega)) y0 (hφ (l + 1) (by omega)) y1 (hφ (l + 2) hk1) y2]
      exact ⟨_, rfl⟩

/-- **C45**, the excluded argument: a NaN (for instance the price of a stock set to NaN) makes the
binary search wrap around and read outside the array, on every grid. -/
theorem C45_nan {R : Rounding} {xs ys : List (Dbl R)} (h0 : xs ≠ []) :
    Interp.quadratic xs ys .nan = .ub := by
  have hp : 0 < xs.length := List.length_pos_iff.mpr h0
  have g1 : xs[0]? = some (xs[0]'(by omega)) := List.getElem?_eq_getElem _
  have g2 : xs[xs.length - 1]? = some (xs[xs.length - 1]'(by omega)) := List.getElem?_eq_getElem _
  have loop : ∀ fuel high, Interp.findLoop xs .nan fuel 0 high = .ub := by
    intro fuel
    induction fuel with
    | zero => intro high; rfl
    | succ fuel ih =>
      intro high
      simp only [Interp.findLoop, Nat.zero_le, if_true, Interp.inInterval]
      cases hv : vget xs (0 + (high - 0) / 2) with
      | ok a => simp [ih]
      | throw e =>
        unfold vget at hv
        split at hv <;> simp at hv
      | ub => rfl
  simp only [Interp.quadratic, Interp.vfront_ok g1, Interp.vback_ok g2, Res.bind_ok, Dbl.nan_le, Dbl.nan_ge,
    Bool.false_eq_true, if_false, Interp.findInterval, loop]
  rfl

/-! ### Examples -/

/-- A grid of five nodes. -/
theorem exampleNodes : Nodes [0, 1, 2, 4, 8] [1, 0, 1, 9, 49] where
  nonempty := by simp
  increasing := by
    intro i j a b hij hi hj
    have hj' : j < 5 := (List.getElem?_eq_some_iff.mp hj).1
    interval_cases j <;> interval_cases i <;> simp at hi hj <;> subst hi hj <;> norm_num
  sameLength := rfl

/-- The data are (x-1)^2 there; linear interpolation at 3 gives 5, quadratic the exact 4. -/
example : Interp.linear [0, 1, 2, 4, 8] [1, 0, 1, 9, 49] (3 : ℝ) = .ok 5 ∧
    Interp.quadratic [0, 1, 2, 4, 8] [1, 0, 1, 9, 49] (3 : ℝ) = .ok 4 := by
  constructor
  · obtain ⟨f, hf, hl⟩ := C44_returns exampleNodes
    rw [hl]
    have := hf.between 2 2 1 4 9 ⟨rfl, rfl⟩ ⟨rfl, rfl⟩ (1 / 2) (by norm_num) (by norm_num)
    norm_num at this
    rw [this]
  · have := C45_quadratic exampleNodes (by norm_num) (a := 1) (b := -2) (c := 1) (x := 3) (by
      rintro i x y ⟨hx, hy⟩
      have hi : i < 5 := (List.getElem?_eq_some_iff.mp hx).1
      interval_cases i <;> simp at hx hy <;> subst hx hy <;> norm_num)
      (x₁ := 1) (y₁ := 0) (x₂ := 4) (y₂ := 9) ⟨rfl, rfl⟩ ⟨rfl, rfl⟩ (by norm_num) (by norm_num)
    rw [this]
    norm_num

/-- Monotone data. -/
example : ∃ a b, Interp.linear [0, 1, 2] [1, 2, 5] (1 / 2 : ℝ) = .ok a ∧ Interp.linear [0, 1, 2] [1, 2, 5] (3 / 2 : ℝ) = .ok b ∧
    a ≤ b := by
  have hN : Nodes [0, 1, 2] [1, 2, 5] := ⟨by simp, by
    intro i j a b hij hi hj
    have hj' : j < 3 := (List.getElem?_eq_some_iff.mp hj).1
    interval_cases j <;> interval_cases i <;> simp at hi hj <;> subst hi hj <;> norm_num, rfl⟩
  refine C44_monotone hN ?_ (by norm_num)
  rintro i j x y x' y' hij ⟨h1, h2⟩ ⟨h3, h4⟩
  have hj' : j < 3 := (List.getElem?_eq_some_iff.mp h3).1
  interval_cases j <;> interval_cases i <;> simp at h2 h4 <;> subst h2 h4 <;> norm_num

/-- A grid of doubles with an infinite node. -/
example (R : Rounding) (x : Dbl R) (hx : x ≠ .nan) :
    (Interp.linear [.num 0, .num 1, .num ⊤] [.num 1, .num 2, .num 3] x).IsOk ∧
    (Interp.quadratic [.num 0, .num 1, .num ⊤] [.num 1, .num 2, .num 3] x).IsOk := by
  refine ⟨(C44_double (xs := [.num 0, .num 1, .num ⊤]) (ys := [.num 1, .num 2, .num 3]) (by simp) rfl (by simp) x).1 hx,
    C45_double (xs := [.num 0, .num 1, .num ⊤]) (ys := [.num 1, .num 2, .num 3]) (by simp) rfl (by norm_num) (by simp) ?_ x hx⟩
  intro i j a b hij hi hj
  have hj' : j < 3 := (List.getElem?_eq_some_iff.mp hj).1
  interval_cases j <;> interval_cases i <;> simp at hi hj <;> subst hi hj <;> simp [show (1 : EReal) < ⊤ from EReal.coe_lt_top 1]

end Verif
