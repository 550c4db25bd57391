import Verif.Props.Interpolation
import Verif.Lemmas.FdmRounding
import Verif.Lemmas.DoubleOps

/-!
# C44: the values of linear interpolation at the nodes and outside the grid, in double arithmetic
-/

namespace Verif
open Spec

theorem Interp.linearScan_at {F : Type} [Fl F] [Add F] [Sub F] [Mul F] [Div F] {xs ys : List F} {x x1 y1 x2 y2 : F} {j : ℕ} (g1 : xs[j]? = some x1) (g2 : xs[j + 1]? = some x2)
    (g3 : ys[j]? = some y1) (g4 : ys[j + 1]? = some y2) (hlow : ∀ k a, k ≤ j → xs[k]? = some a → Fl.lt x a = false) (hup : Fl.lt x x2 = true) :
    ∀ (todo i : ℕ), todo + i = xs.length → 1 ≤ i → i ≤ j + 1 → Interp.linearScan xs ys x todo i = .ok (Interp.line x1 y1 x2 y2 x)
  | 0, i, h1, _, h3 => by
    have := (List.getElem?_eq_some_iff.mp g2).1
    omega
  | todo + 1, i, h1, h2, h3 => by
    rcases h3.eq_or_lt with rfl | h
    · simp only [Interp.linearScan, Interp.vget_ok g2, Res.bind_ok, hup, if_true, Nat.add_sub_cancel, Interp.vget_ok g1, Interp.vget_ok g3, Interp.vget_ok g4]
      rfl
    · have g : xs[i]? = some (xs[i]'(by omega)) := List.getElem?_eq_getElem _
      simp only [Interp.linearScan, Interp.vget_ok g, Res.bind_ok, hlow i _ (by omega) g, Bool.false_eq_true, if_false]
      exact Interp.linearScan_at g1 g2 g3 g4 hlow hup todo (i + 1) (by omega) (by omega) (by omega)

/-- **C44.** In double arithmetic with any rounding: outside the grid the value at the nearest end is returned. -/
theorem C44_doubleClamps {R : Rounding} {xs ys : List (Dbl R)} (x₀ y₀ x₁ y₁ : Dbl R) (h0 : xs.head? = some x₀) (h1 : xs.getLast? = some x₁) (hx : Fl.lt x₀ x₁ = true)
    (g0 : ys.head? = some y₀) (g1 : ys.getLast? = some y₁) (x : Dbl R) :
    (Fl.le x x₀ = true → Interp.linear xs ys x = .ok y₀) ∧ (Fl.le x₁ x = true → Interp.linear xs ys x = .ok y₁) := by
  rw [List.head?_eq_getElem?] at h0 g0
  rw [List.getLast?_eq_getElem?] at h1 g1
  constructor
  · intro h
    simp only [Interp.linear, Interp.vfront_ok h0, Res.bind_ok, h, if_true, Interp.vfront_ok g0]
  · intro h
    have h' : Fl.le x x₀ = false := by
      cases x₀ <;> cases x₁ <;> cases x <;> simp at hx h ⊢
      exact lt_of_lt_of_le hx h
    have h2 : Fl.ge x x₁ = true := h
    simp only [Interp.linear, Interp.vfront_ok h0, Interp.vback_ok h1, Res.bind_ok, h', Bool.false_eq_true, if_false, h2, if_true, Interp.vback_ok g1]

/-- **C44.** In double arithmetic with any rounding, on a strictly increasing grid: at a node `x` exactly the value `y` of the node is returned, provided `y` is a double and the differences
to the next node neither overflow nor vanish. -/
theorem C44_doubleNodes {R : Rounding} {xs ys : List (Dbl R)} (hl : ys.length = xs.length)
    (hinc : ∀ (i j : ℕ) (a b : Dbl R), i < j → xs[i]? = some a → xs[j]? = some b → Fl.lt a b = true) (i : ℕ) (x y : ℝ) (hx : xs[i]? = some (.num x)) (hy : ys[i]? = some (.num y))
    (hrep : R.rnd y = y)
    (hnext : ∀ x₂ y₂, xs[i + 1]? = some x₂ → ys[i + 1]? = some y₂ → (∃ d : ℝ, y₂ - .num y = .num d) ∧ ∃ e : ℝ, e ≠ 0 ∧ x₂ - .num x = .num e) :
    Interp.linear xs ys (.num x) = .ok (.num y) := by
  have hi : i < xs.length := (List.getElem?_eq_some_iff.mp hx).1
  have g1 : xs[0]? = some (xs[0]'(by omega)) := List.getElem?_eq_getElem _
  have g2 : xs[xs.length - 1]? = some (xs[xs.length - 1]'(by omega)) := List.getElem?_eq_getElem _
  have g3 : ys[0]? = some (ys[0]'(by omega)) := List.getElem?_eq_getElem _
  have g4 : ys[ys.length - 1]? = some (ys[ys.length - 1]'(by omega)) := List.getElem?_eq_getElem _
  have hlt : ∀ {a b : Dbl R}, Fl.lt a b = true → Fl.lt b a = false ∧ Fl.le b a = false := by
    intro a b h
    cases a <;> cases b <;> simp at h ⊢
    exact ⟨h.le, h⟩
  simp only [Interp.linear, Interp.vfront_ok g1, Interp.vback_ok g2, Interp.vfront_ok g3, Interp.vback_ok g4, Res.bind_ok]
  rcases Nat.eq_zero_or_pos i with rfl | hpos
  · rw [g1] at hx
    rw [g3] at hy
    rw [Option.some.inj hx, Option.some.inj hy]
    simp
  · rw [if_neg (by rw [(hlt (hinc 0 i _ _ hpos g1 hx)).2]; simp)]
    rcases Nat.lt_or_ge (i + 1) xs.length with hlast | hlast
    · have g5 : xs[i + 1]? = some (xs[i + 1]'(by omega)) := List.getElem?_eq_getElem _
      have g6 : ys[i + 1]? = some (ys[i + 1]'(by omega)) := List.getElem?_eq_getElem _
      have hge : Fl.ge (.num x : Dbl R) xs[xs.length - 1] = false := (hlt (hinc i (xs.length - 1) _ _ (by omega) hx g2)).2
      rw [if_neg (by rw [hge]; simp), Interp.linearScan_at hx g5 hy g6 (fun k a hk ha => by
        rcases hk.eq_or_lt with rfl | hk
        · obtain rfl := Option.some.inj (hx.symm.trans ha)
          simp
        · exact (hlt (hinc k i _ _ hk ha hx)).1) (hinc i (i + 1) _ _ (by omega) hx g5) _ 1 (by omega) le_rfl (by omega)]
      obtain ⟨⟨d, hd⟩, e, he, hxe⟩ := hnext _ _ g5 g6
      rw [Interp.line, hd, hxe, Dbl.sub_coe, sub_self, R.zero]
      have z : (Dbl.num 0 * Dbl.num (d : EReal) : Dbl R) = .num 0 := by
        rw [← EReal.coe_zero, Dbl.mul_coe, zero_mul, R.zero, EReal.coe_zero]
      have z2 : (Dbl.num 0 / Dbl.num (e : EReal) : Dbl R) = .num 0 := by
        rw [← EReal.coe_zero, Dbl.div_coe _ he, zero_div, R.zero, EReal.coe_zero]
      rw [z, z2, ← EReal.coe_zero, Dbl.add_coe, add_zero, hrep]
    · have e : i = xs.length - 1 := by omega
      have e' : i = ys.length - 1 := by omega
      have ex : xs[xs.length - 1]'(by omega) = .num x := by
        rw [e, g2] at hx
        exact Option.some.inj hx
      have ey : ys[ys.length - 1]'(by omega) = .num y := by
        rw [e', g4] at hy
        exact Option.some.inj hy
      rw [ex, ey, if_pos (by simp)]

/-- A grid of three nodes: the value at the middle node is returned exactly, and the value 2 at the last one beyond it. -/
example : Interp.linear [.num ((0 : ℝ) : EReal), .num ((1 : ℝ) : EReal), .num ((2 : ℝ) : EReal)] [.num ((1 : ℝ) : EReal), .num ((3 : ℝ) : EReal), .num ((5 : ℝ) : EReal)]
      (.num ((1 : ℝ) : EReal) : Dbl .binary64) = .ok (.num ((3 : ℝ) : EReal)) ∧
    Interp.linear [.num ((0 : ℝ) : EReal), .num ((1 : ℝ) : EReal), .num ((2 : ℝ) : EReal)] [.num ((1 : ℝ) : EReal), .num ((3 : ℝ) : EReal), .num ((5 : ℝ) : EReal)]
      (.num ⊤ : Dbl .binary64) = .ok (.num ((5 : ℝ) : EReal)) := by
  have r : ∀ n : ℕ, n ≤ 2 ^ 53 → Rounding.binary64.rnd (n : ℝ) = ((n : ℝ) : EReal) := fun n h => Binary64.rnd_natCast h
  constructor
  · refine C44_doubleNodes (xs := [.num ((0 : ℝ) : EReal), .num ((1 : ℝ) : EReal), .num ((2 : ℝ) : EReal)]) (ys := [.num ((1 : ℝ) : EReal), .num ((3 : ℝ) : EReal), .num ((5 : ℝ) : EReal)]) rfl ?_ 1 1 3 rfl rfl (by exact_mod_cast r 3 (by norm_num)) ?_
    · intro i j a b hij ha hb
      have hj : j < 3 := (List.getElem?_eq_some_iff.mp hb).1
      interval_cases j <;> interval_cases i <;> simp at ha hb <;> subst ha hb <;> simp [← EReal.coe_one, EReal.coe_pos]
    · intro x₂ y₂ hx hy
      simp at hx hy
      subst hx hy
      refine ⟨⟨2, ?_⟩, 1, one_ne_zero, ?_⟩
      · rw [Dbl.sub_coe, show (5 : ℝ) - 3 = (2 : ℕ) by norm_num, r 2 (by norm_num)]
        norm_num
      · rw [Dbl.sub_coe, show (2 : ℝ) - 1 = (1 : ℕ) by norm_num, r 1 (by norm_num)]
        norm_num
  · exact (C44_doubleClamps (.num ((0 : ℝ) : EReal)) (.num ((1 : ℝ) : EReal)) (.num ((2 : ℝ) : EReal)) (.num ((5 : ℝ) : EReal)) rfl rfl (by simp) rfl rfl _).2 (by simp)

end Verif
