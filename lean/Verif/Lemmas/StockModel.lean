import Verif.Model.StockModel
import Verif.Lemmas.MonteCarlo

/-!
# Lemmas on the simulation loops
-/

set_option linter.unusedSectionVars false

namespace Verif

namespace Eff
variable {σ α β γ δ : Type}

theorem bind_ok_iff {x : Eff σ α} {f : α → Eff σ β} {s s' : σ} {b : β} :
    (x >>= f) s = (.ok b, s') ↔ ∃ a s₁, x s = (.ok a, s₁) ∧ f a s₁ = (.ok b, s') := by
  rw [bind_apply]
  rcases hx : x s with ⟨r, s₁⟩
  cases r <;> simp

theorem pure_ok_iff {a b : α} {s s' : σ} :
    (pure a : Eff σ α) s = (.ok b, s') ↔ a = b ∧ s = s' := by
  simp [pure_apply]

theorem unfoldInt_ok_iff {body : α → Eff σ (α × β)} {n : Nat} {a : α} {s s' : σ} {l : List β} :
    unfoldInt body n a s = (.ok l, s') ↔ n ≤ INT_MAX ∧ unfoldN body n a s = (.ok l, s') := by
  by_cases h : n ≤ INT_MAX
  · rw [unfoldInt_of_le h]; simp [h]
  · constructor
    · intro hx
      unfold unfoldInt at hx
      rw [bind_ok_iff] at hx
      obtain ⟨l', s₁, -, h2⟩ := hx
      rw [if_neg h] at h2
      simp at h2
    · exact fun hx => absurd hx.1 h

/-- Every invariant of the loop state that a successful iteration keeps holds throughout. -/
theorem unfoldN_inv {body : α → Eff σ (α × β)} {I : α → Prop} {J : β → Prop}
    (h : ∀ a s x s', I a → body a s = (.ok x, s') → I x.1 ∧ J x.2) :
    ∀ {n : Nat} {a : α} {s s' : σ} {l : List β}, I a → unfoldN body n a s = (.ok l, s') →
      l.length = n ∧ ∀ y ∈ l, J y
  | 0, a, s, s', l, _, hl => by
    simp only [unfoldN, pure_ok_iff] at hl
    obtain ⟨rfl, -⟩ := hl
    simp
  | n + 1, a, s, s', l, ha, hl => by
    simp only [unfoldN] at hl
    rw [bind_ok_iff] at hl
    obtain ⟨x, s₁, hx, hl⟩ := hl
    rw [bind_ok_iff] at hl
    obtain ⟨l', s₂, hl', hl⟩ := hl
    rw [pure_ok_iff] at hl
    obtain ⟨rfl, -⟩ := hl
    obtain ⟨h1, h2⟩ := h a s x s₁ ha hx
    obtain ⟨h3, h4⟩ := unfoldN_inv h h1 hl'
    refine ⟨by simp [h3], ?_⟩
    intro y hy
    rcases List.mem_cons.mp hy with rfl | hy
    · exact h2
    · exact h4 y hy

/-- Loops with corresponding bodies have corresponding results, whatever the outcome. -/
theorem unfoldN_map {body : α → Eff σ (α × β)} {body' : γ → Eff σ (γ × δ)} {f : α → γ} {h : β → δ}
    (hb : ∀ a, body' (f a) = (fun x => (f x.1, h x.2)) <$> body a) :
    ∀ (n : Nat) (a : α), unfoldN body' n (f a) = List.map h <$> unfoldN body n a
  | 0, a => by simp [unfoldN]
  | n + 1, a => by
    simp only [unfoldN, hb, map_bind, bind_map_left]
    congr 1
    funext x
    rw [unfoldN_map hb n x.1]
    simp

theorem unfoldInt_map {body : α → Eff σ (α × β)} {body' : γ → Eff σ (γ × δ)} {f : α → γ} {h : β → δ}
    (hb : ∀ a, body' (f a) = (fun x => (f x.1, h x.2)) <$> body a) (n : Nat) (a : α) :
    unfoldInt body' n (f a) = List.map h <$> unfoldInt body n a := by
  unfold unfoldInt
  rw [unfoldN_map hb, map_bind, bind_map_left]
  congr 1
  funext l
  split
  · simp
  · rfl

theorem forN_map {body : α → Eff σ α} {body' : β → Eff σ β} {f : α → β} (hb : ∀ a, body' (f a) = f <$> body a) :
    ∀ (n : Nat) (a : α), forN body' n (f a) = f <$> forN body n a
  | 0, a => by simp [forN]
  | n + 1, a => by
    simp only [forN, hb, map_bind, bind_map_left]
    congr 1
    funext x
    exact forN_map hb n x

theorem forN_inv {body : α → Eff σ α} {I : α → Prop}
    (h : ∀ a s x s', I a → body a s = (.ok x, s') → I x) :
    ∀ {n : Nat} {a : α} {s s' : σ} {b : α}, I a → forN body n a s = (.ok b, s') → I b
  | 0, a, s, s', b, ha, hb => by
    simp only [forN, pure_ok_iff] at hb
    exact hb.1 ▸ ha
  | n + 1, a, s, s', b, ha, hb => by
    simp only [forN] at hb
    rw [bind_ok_iff] at hb
    obtain ⟨x, s₁, hx, hb⟩ := hb
    exact forN_inv h (h a s x s₁ ha hx) hb

end Eff

namespace Sim
variable {G F : Type} [Fl F] [Add F] [Sub F] [Mul F] [Div F] [Neg F]

theorem newDist_ok_iff {g : Gen G F} {d : Res (Dist F)} {s s' : G} {x : Dist F} :
    newDist g d s = (.ok x, s') ↔ d = .ok x ∧ s' = g.newDist x s := by
  cases d with
  | ok y =>
    have : newDist g (.ok y) s = (.ok y, g.newDist y s) := rfl
    rw [this]
    simp only [Prod.mk.injEq, Res.ok.injEq]
    constructor
    · rintro ⟨rfl, rfl⟩; exact ⟨rfl, rfl⟩
    · rintro ⟨rfl, rfl⟩; exact ⟨rfl, rfl⟩
  | throw e =>
    have : newDist g (.throw e) s = (.throw e, s) := rfl
    rw [this]; simp
  | ub =>
    have : newDist g (.ub) s = (.ub, s) := rfl
    rw [this]; simp

theorem newDist_ok {g : Gen G F} (d : Dist F) (s : G) :
    newDist g (.ok d) s = (.ok d, g.newDist d s) := newDist_ok_iff.mpr ⟨rfl, rfl⟩

end Sim
/-- The generator all of whose draws are `z`. -/
def constGen (z : ℝ) : Gen Unit ℝ where
  draw _ := pure z
  newDist _ s := s

/-- Draws numbered by the state. -/
def scriptGen (f : ℕ → ℝ) : Gen ℕ ℝ where
  draw _ := fun s => (.ok (f s), s + 1)
  newDist _ s := s

theorem toInt_one : FlInt.toInt (1 : ℝ) = some 1 := by
  simp [FlInt.toInt, truncInt]

end Verif
