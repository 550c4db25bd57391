import Verif.Lemmas.StockModel
import Verif.Spec.StockModelSpec

/-!
# The simulation loops refine the relational specification
-/

set_option linter.unusedSectionVars false

namespace Verif
open Eff Spec

namespace Sim
variable {G : Type} {g : Gen G ℝ}

theorem drawCount_iff {d : Dist ℝ} {s s' : G} {n : ℕ} :
    drawCount g d s = (.ok n, s') ↔ ∃ x, g.draw d s = (.ok x, s') ∧ Count x n := by
  unfold drawCount
  rw [bind_ok_iff]
  constructor
  · rintro ⟨x, s₁, hx, h⟩
    cases hk : FlInt.toInt x with
    | none => rw [hk] at h; simp at h
    | some k =>
      rw [hk] at h
      dsimp only at h
      rw [pure_ok_iff] at h
      obtain ⟨rfl, rfl⟩ := h
      exact ⟨x, hx, k, hk, rfl⟩
  · rintro ⟨x, hx, k, hk, rfl⟩
    refine ⟨x, s', hx, ?_⟩
    rw [hk]
    rfl

theorem forN_mul_iff {d : Dist ℝ} : ∀ {n : ℕ} {S S' : ℝ} {s s' : G},
    forN (batesJump g d) n S s = (.ok S', s') ↔
      ∃ js, Draws (g.draw d) s js s' ∧ js.length = n ∧ S' = S * Real.exp js.sum
  | 0, S, S', s, s' => by
    simp only [forN, pure_ok_iff]
    constructor
    · rintro ⟨rfl, rfl⟩; exact ⟨[], .nil _, rfl, by simp⟩
    · rintro ⟨js, h, hl, rfl⟩
      cases h with
      | nil => simp
      | cons h t => simp at hl
  | n + 1, S, S', s, s' => by
    simp only [forN, bind_ok_iff, batesJump, pure_ok_iff, Fl.exp_real]
    constructor
    · rintro ⟨_, _, ⟨j, s₁, hj, rfl, rfl⟩, h⟩
      obtain ⟨js, h1, h2, rfl⟩ := forN_mul_iff.mp h
      exact ⟨j :: js, .cons hj h1, by simp [h2], by simp [Real.exp_add, mul_assoc]⟩
    · rintro ⟨js, h, hl, rfl⟩
      cases h with
      | nil => simp at hl
      | cons hj t =>
        rename_i s₁ j js
        exact ⟨_, _, ⟨j, s₁, hj, rfl, rfl⟩, forN_mul_iff.mpr ⟨js, t, by simpa using hl,
          by simp [Real.exp_add, mul_assoc]⟩⟩

theorem forN_add_iff {d : Dist ℝ} : ∀ {n : ℕ} {J J' : ℝ} {s s' : G},
    forN (mertonJump g d) n J s = (.ok J', s') ↔
      ∃ js, Draws (g.draw d) s js s' ∧ js.length = n ∧ J' = J + js.sum
  | 0, S, S', s, s' => by
    simp only [forN, pure_ok_iff]
    constructor
    · rintro ⟨rfl, rfl⟩; exact ⟨[], .nil _, rfl, by simp⟩
    · rintro ⟨js, h, hl, rfl⟩
      cases h with
      | nil => simp
      | cons h t => simp at hl
  | n + 1, S, S', s, s' => by
    simp only [forN, bind_ok_iff, mertonJump, pure_ok_iff]
    constructor
    · rintro ⟨_, _, ⟨j, s₁, hj, rfl, rfl⟩, h⟩
      obtain ⟨js, h1, h2, rfl⟩ := forN_add_iff.mp h
      exact ⟨j :: js, .cons hj h1, by simp [h2], by simp [add_assoc]⟩
    · rintro ⟨js, h, hl, rfl⟩
      cases h with
      | nil => simp at hl
      | cons hj t =>
        rename_i s₁ j js
        exact ⟨_, _, ⟨j, s₁, hj, rfl, rfl⟩, forN_add_iff.mpr ⟨js, t, by simpa using hl,
          by simp [add_assoc]⟩⟩

theorem kouJump_iff {p : ℝ} {up down : Dist ℝ} {J J' : ℝ} {s s' : G} :
    kouJump g p (.uniform 0 1) up down J s = (.ok J', s') ↔ ∃ U s₁,
      g.draw (.uniform 0 1) s = (.ok U, s₁) ∧
      ((U < p ∧ ∃ E s₂ E', g.draw up s₁ = (.ok E, s₂) ∧ g.draw down s₂ = (.ok E', s') ∧
        J' = J + (E - E')) ∨
       (p ≤ U ∧ ∃ E, g.draw down s₁ = (.ok E, s') ∧ J' = J + -E)) := by
  simp only [kouJump, bind_ok_iff, draw, pure_ok_iff]
  constructor
  · rintro ⟨U, s₁, hU, acc, s₂, hacc, E', s₃, hE', rfl, rfl⟩
    refine ⟨U, s₁, hU, ?_⟩
    split at hacc
    · rename_i h
      simp only [Fl.lt_real] at h
      simp only [bind_ok_iff, pure_ok_iff] at hacc
      obtain ⟨E, s₄, hE, rfl, rfl⟩ := hacc
      exact .inl ⟨h, E, s₄, E', hE, hE', by ring⟩
    · rename_i h
      simp only [Fl.lt_real, not_lt] at h
      rw [pure_ok_iff] at hacc
      obtain ⟨rfl, rfl⟩ := hacc
      exact .inr ⟨h, E', hE', rfl⟩
  · rintro ⟨U, s₁, hU, ⟨h, E, s₂, E', hE, hE', rfl⟩ | ⟨h, E, hE, rfl⟩⟩
    · refine ⟨U, s₁, hU, J + E, s₂, ?_, E', s', hE', by ring, rfl⟩
      rw [if_pos (by simpa using h)]
      simp only [bind_ok_iff, pure_ok_iff]
      exact ⟨E, s₂, hE, rfl, rfl⟩
    · refine ⟨U, s₁, hU, J, s₁, ?_, E, s', hE, rfl, rfl⟩
      rw [if_neg (by simpa using h)]
      rfl

theorem forN_kou_iff {p : ℝ} {up down : Dist ℝ} : ∀ {n : ℕ} {J J' : ℝ} {s s' : G},
    forN (kouJump g p (.uniform 0 1) up down) n J s = (.ok J', s') ↔
      ∃ js, KouJumpsActual g p up down s js s' ∧ js.length = n ∧ J' = J + js.sum
  | 0, S, S', s, s' => by
    simp only [forN, pure_ok_iff]
    constructor
    · rintro ⟨rfl, rfl⟩; exact ⟨[], .nil _, rfl, by simp⟩
    · rintro ⟨js, h, hl, rfl⟩
      cases h with
      | nil => simp
      | upDown => simp at hl
      | down => simp at hl
  | n + 1, S, S', s, s' => by
    simp only [forN, bind_ok_iff]
    constructor
    · rintro ⟨J₁, s₁, hj, h⟩
      obtain ⟨js, h1, h2, rfl⟩ := forN_kou_iff.mp h
      obtain ⟨U, s₂, hU, ⟨hlt, E, s₃, E', hE, hE', rfl⟩ | ⟨hle, E, hE, rfl⟩⟩ := kouJump_iff.mp hj
      · exact ⟨(E - E') :: js, .upDown hU hlt hE hE' h1, by simp [h2], by simp [add_assoc]⟩
      · exact ⟨-E :: js, .down hU hle hE h1, by simp [h2], by simp [add_assoc]⟩
    · rintro ⟨js, h, hl, rfl⟩
      cases h with
      | nil => simp at hl
      | upDown hU hlt hE hE' t =>
        exact ⟨_, _, kouJump_iff.mpr ⟨_, _, hU, .inl ⟨hlt, _, _, _, hE, hE', rfl⟩⟩,
          forN_kou_iff.mpr ⟨_, t, by simpa using hl, by simp [add_assoc]⟩⟩
      | down hU hle hE t =>
        exact ⟨_, _, kouJump_iff.mpr ⟨_, _, hU, .inr ⟨hle, _, hE, rfl⟩⟩,
          forN_kou_iff.mpr ⟨_, t, by simpa using hl, by simp [add_assoc]⟩⟩

/-- Heston loop. -/
theorem heston_unfold {v : View ℝ} {kappa theta sigmaV rho dt : ℝ} {disc : CIR ℝ} :
    ∀ {n : ℕ} {S V : ℝ} {s s' : G} {ps : List ℝ},
      unfoldN (hestonStep g v kappa theta sigmaV rho disc dt .stdNormal) n (S, V) s = (.ok ps, s') ↔
      ps.length = n ∧ SVPath g NoJump v.r v.c rho dt
        (fun V z => disc.update V dt kappa theta sigmaV z) S V s ps s'
  | 0, S, V, s, s', ps => by
    simp only [unfoldN, pure_ok_iff]
    constructor
    · rintro ⟨rfl, rfl⟩; exact ⟨rfl, .nil _ _ _⟩
    · rintro ⟨hl, h⟩
      cases h with
      | nil => exact ⟨rfl, rfl⟩
      | cons => simp at hl
  | n + 1, S, V, s, s', ps => by
    have e : ∀ z1 z2, svUpdate v rho dt S V z1 z2 = S * Real.exp ((v.r - v.c - max V 0 / 2) * dt +
          Real.sqrt (max V 0 * dt) * (rho * z1 + Real.sqrt (1 - rho ^ 2) * z2) + 0) := by
      intro z1 z2
      simp only [svUpdate, Fl.exp_real, Fl.sqrt_real, Fl.max_real, Fl.lit_real]
      push_cast
      congr 2
      rw [show (1 : ℝ) - rho * rho = 1 - rho ^ 2 by ring]
      ring
    simp only [unfoldN, bind_ok_iff, hestonStep, draw, pure_ok_iff]
    constructor
    · rintro ⟨_, _, ⟨z1, s₁, h1, z2, s₂, h2, rfl, rfl⟩, l, s₃, hl, rfl, rfl⟩
      obtain ⟨hl, h⟩ := heston_unfold.mp hl
      refine ⟨by simp [hl], ?_⟩
      dsimp only at h ⊢
      rw [e] at h ⊢
      exact .cons h1 h2 ⟨rfl, rfl⟩ h
    · rintro ⟨hl, h⟩
      cases h with
      | nil => simp at hl
      | cons h1 h2 hJ t =>
        obtain ⟨rfl, rfl⟩ := hJ
        refine ⟨_, _, ⟨_, _, h1, _, _, h2, rfl, rfl⟩, _, _, heston_unfold.mpr ⟨by simpa using hl, ?_⟩,
          ?_, rfl⟩
        · rw [e]
          exact t
        · dsimp only
          rw [e]

/-- Bates loop. -/
theorem bates_unfold {v : View ℝ} {kappa theta sigmaV rho dt : ℝ} {disc : CIR ℝ}
    {poisson size : Dist ℝ} :
    ∀ {n : ℕ} {S V : ℝ} {s s' : G} {ps : List ℝ},
      unfoldN (batesStep g v kappa theta sigmaV rho disc dt .stdNormal poisson size) n (S, V) s =
        (.ok ps, s') ↔
      ps.length = n ∧ SVPath g (CompoundJump g poisson size) v.r v.c rho dt
        (fun V z => disc.update V dt kappa theta sigmaV z) S V s ps s'
  | 0, S, V, s, s', ps => by
    simp only [unfoldN, pure_ok_iff]
    constructor
    · rintro ⟨rfl, rfl⟩; exact ⟨rfl, .nil _ _ _⟩
    · rintro ⟨hl, h⟩
      cases h with
      | nil => exact ⟨rfl, rfl⟩
      | cons => simp at hl
  | n + 1, S, V, s, s', ps => by
    have e : ∀ z1 z2 J, svUpdate v rho dt S V z1 z2 * Real.exp J =
        S * Real.exp ((v.r - v.c - max V 0 / 2) * dt +
          Real.sqrt (max V 0 * dt) * (rho * z1 + Real.sqrt (1 - rho ^ 2) * z2) + J) := by
      intro z1 z2 J
      simp only [svUpdate, Fl.exp_real, Fl.sqrt_real, Fl.max_real, Fl.lit_real, mul_assoc,
        ← Real.exp_add]
      push_cast
      congr 2
      rw [show (1 : ℝ) - rho * rho = 1 - rho ^ 2 by ring]
      ring
    simp only [unfoldN, bind_ok_iff, batesStep, draw, pure_ok_iff, drawCount_iff, forN_mul_iff]
    constructor
    · rintro ⟨_, _, ⟨z1, s₁, h1, z2, s₂, h2, m, s₃, ⟨x, hx, hc⟩, S', s₄, ⟨js, hjs, hlen, rfl⟩, rfl,
        rfl⟩, l, s₃, hl, rfl, rfl⟩
      obtain ⟨hl, h⟩ := bates_unfold.mp hl
      refine ⟨by simp [hl], ?_⟩
      dsimp only at h ⊢
      rw [e] at h ⊢
      exact .cons h1 h2 ⟨x, _, m, js, hx, hc, hjs, hlen, rfl⟩ h
    · rintro ⟨hl, h⟩
      cases h with
      | nil => simp at hl
      | cons h1 h2 hJ t =>
        obtain ⟨x, s₃, m, js, hx, hc, hjs, hlen, rfl⟩ := hJ
        refine ⟨_, _, ⟨_, _, h1, _, _, h2, m, _, ⟨x, hx, hc⟩, _, _, ⟨js, hjs, hlen, rfl⟩, rfl, rfl⟩,
          _, _, bates_unfold.mpr ⟨by simpa using hl, ?_⟩, ?_, rfl⟩
        · rw [e]
          exact t
        · dsimp only
          rw [e]

/-- Merton loop. -/
theorem merton_unfold {v : View ℝ} {dt : ℝ} {poisson size : Dist ℝ} :
    ∀ {n : ℕ} {S : ℝ} {s s' : G} {ps : List ℝ},
      unfoldN (mertonStep g v dt .stdNormal poisson size) n S s = (.ok ps, s') ↔
      ps.length = n ∧ JumpPath g (CompoundJump g poisson size) (v.r - v.c - v.sigma ^ 2 / 2) v.sigma
        dt S s ps s'
  | 0, S, s, s', ps => by
    simp only [unfoldN, pure_ok_iff]
    constructor
    · rintro ⟨rfl, rfl⟩; exact ⟨rfl, .nil _ _⟩
    · rintro ⟨hl, h⟩
      cases h with
      | nil => exact ⟨rfl, rfl⟩
      | cons => simp at hl
  | n + 1, S, s, s', ps => by
    have e : ∀ z J, mertonUpdate v dt S z ((lit 0 : ℝ) + J) =
        S * Real.exp ((v.r - v.c - v.sigma ^ 2 / 2) * dt + v.sigma * Real.sqrt dt * z + J) := by
      intro z J
      simp only [mertonUpdate, Fl.exp_real, Fl.sqrt_real, Fl.lit_real]
      push_cast
      congr 2
      ring
    simp only [unfoldN, bind_ok_iff, mertonStep, draw, pure_ok_iff, drawCount_iff, forN_add_iff]
    constructor
    · rintro ⟨_, _, ⟨z, s₁, h1, m, s₃, ⟨x, hx, hc⟩, S', s₄, ⟨js, hjs, hlen, rfl⟩, rfl,
        rfl⟩, l, s₃, hl, rfl, rfl⟩
      obtain ⟨hl, h⟩ := merton_unfold.mp hl
      refine ⟨by simp [hl], ?_⟩
      dsimp only at h ⊢
      rw [e] at h ⊢
      exact .cons h1 ⟨x, _, m, js, hx, hc, hjs, hlen, rfl⟩ h
    · rintro ⟨hl, h⟩
      cases h with
      | nil => simp at hl
      | cons h1 hJ t =>
        obtain ⟨x, s₃, m, js, hx, hc, hjs, hlen, rfl⟩ := hJ
        refine ⟨_, _, ⟨_, _, h1, m, _, ⟨x, hx, hc⟩, _, _, ⟨js, hjs, hlen, rfl⟩, rfl, rfl⟩,
          _, _, merton_unfold.mpr ⟨by simpa using hl, ?_⟩, ?_, rfl⟩
        · dsimp only
          rw [e]
          exact t
        · dsimp only
          rw [e]

/-- Kou loop. -/
theorem kou_unfold {v : View ℝ} {lambda p muJ dt : ℝ} {poisson up down : Dist ℝ} :
    ∀ {n : ℕ} {S : ℝ} {s s' : G} {ps : List ℝ},
      unfoldN (kouStep g v lambda p muJ dt .stdNormal poisson (.uniform 0 1) up down) n S s =
        (.ok ps, s') ↔
      ps.length = n ∧ JumpPath g (CountedJump g poisson (KouJumpsActual g p up down))
        (v.r - v.c - v.sigma ^ 2 / 2 - lambda * (muJ - 1)) v.sigma dt S s ps s'
  | 0, S, s, s', ps => by
    simp only [unfoldN, pure_ok_iff]
    constructor
    · rintro ⟨rfl, rfl⟩; exact ⟨rfl, .nil _ _⟩
    · rintro ⟨hl, h⟩
      cases h with
      | nil => exact ⟨rfl, rfl⟩
      | cons => simp at hl
  | n + 1, S, s, s', ps => by
    have e : ∀ z J, kouUpdate v lambda muJ dt S z ((lit 0 : ℝ) + J) =
        S * Real.exp ((v.r - v.c - v.sigma ^ 2 / 2 - lambda * (muJ - 1)) * dt +
          v.sigma * Real.sqrt dt * z + J) := by
      intro z J
      simp only [kouUpdate, Fl.exp_real, Fl.sqrt_real, Fl.lit_real]
      push_cast
      congr 2
      ring
    simp only [unfoldN, bind_ok_iff, kouStep, draw, pure_ok_iff, drawCount_iff, forN_kou_iff]
    constructor
    · rintro ⟨_, _, ⟨z, s₁, h1, m, s₃, ⟨x, hx, hc⟩, S', s₄, ⟨js, hjs, hlen, rfl⟩, rfl,
        rfl⟩, l, s₃, hl, rfl, rfl⟩
      obtain ⟨hl, h⟩ := kou_unfold.mp hl
      refine ⟨by simp [hl], ?_⟩
      dsimp only at h ⊢
      rw [e] at h ⊢
      exact .cons h1 ⟨x, _, m, js, hx, hc, hjs, hlen, rfl⟩ h
    · rintro ⟨hl, h⟩
      cases h with
      | nil => simp at hl
      | cons h1 hJ t =>
        obtain ⟨x, s₃, m, js, hx, hc, hjs, hlen, rfl⟩ := hJ
        refine ⟨_, _, ⟨_, _, h1, m, _, ⟨x, hx, hc⟩, _, _, ⟨js, hjs, hlen, rfl⟩, rfl, rfl⟩,
          _, _, kou_unfold.mpr ⟨by simpa using hl, ?_⟩, ?_, rfl⟩
        · dsimp only
          rw [e]
          exact t
        · dsimp only
          rw [e]

/-- Variance gamma loop. -/
theorem vg_unfold {v : View ℝ} {theta omega dt : ℝ} {gam : Dist ℝ} :
    ∀ {n : ℕ} {S : ℝ} {s s' : G} {ps : List ℝ},
      unfoldN (vgStep g v theta omega dt gam .stdNormal) n S s = (.ok ps, s') ↔
      ps.length = n ∧ VGPath g gam (v.r - v.c + omega) theta v.sigma dt S s ps s'
  | 0, S, s, s', ps => by
    simp only [unfoldN, pure_ok_iff]
    constructor
    · rintro ⟨rfl, rfl⟩; exact ⟨rfl, .nil _ _⟩
    · rintro ⟨hl, h⟩
      cases h with
      | nil => exact ⟨rfl, rfl⟩
      | cons => simp at hl
  | n + 1, S, s, s', ps => by
    have e : ∀ x z, vgUpdate v theta omega dt S x z =
        S * Real.exp ((v.r - v.c + omega) * dt + (theta * x + v.sigma * Real.sqrt x * z)) :=
      fun x z => rfl
    simp only [unfoldN, bind_ok_iff, vgStep, draw, pure_ok_iff]
    constructor
    · rintro ⟨_, _, ⟨z, s₁, h1, x, s₃, hx, rfl, rfl⟩, l, s₃, hl, rfl, rfl⟩
      obtain ⟨hl, h⟩ := vg_unfold.mp hl
      refine ⟨by simp [hl], ?_⟩
      dsimp only at h ⊢
      rw [e] at h ⊢
      exact .cons h1 hx h
    · rintro ⟨hl, h⟩
      cases h with
      | nil => simp at hl
      | cons h1 hx t =>
        refine ⟨_, _, ⟨_, _, h1, _, _, hx, rfl, rfl⟩, _, _, vg_unfold.mpr ⟨by simpa using hl, ?_⟩, ?_,
          rfl⟩
        · dsimp only
          rw [e]
          exact t
        · dsimp only
          rw [e]

end Sim
end Verif
