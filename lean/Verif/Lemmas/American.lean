import Verif.Spec.LsmcSpec
import Verif.Lemmas.MonteCarlo

/-!
# Lemmas on the American pricer
-/

set_option linter.unusedSectionVars false

namespace Verif
open Spec

/-! ## Lists -/

theorem list_eq_map_range {α : Type} (l : List α) (d : α) :
    l = (List.range l.length).map (fun i => l.getD i d) := by
  apply List.ext_getElem
  · simp
  · intro i h1 h2
    simp [List.getD_eq_getElem?_getD, h1]

theorem filter_range_split (q : ℕ → Bool) {n i : ℕ} (h : i < n) (hq : q i = true) :
    ((List.range n).filter q)[((List.range i).filter q).length]? = some i := by
  obtain ⟨d, rfl⟩ := Nat.exists_eq_add_of_lt h
  have : List.range (i + d + 1) = List.range i ++ i :: (List.range d).map (fun x => i + 1 + x) := by
    rw [show i + d + 1 = i + (d + 1) by ring, List.range_add, List.range_succ_eq_map]
    simp [Function.comp_def, Nat.add_comm, Nat.add_left_comm]
  rw [this, List.filter_append, List.filter_cons_of_pos hq]
  simp

theorem filter_range_getElem (q : ℕ → Bool) {n k i : ℕ}
    (h : ((List.range n).filter q)[k]? = some i) :
    i < n ∧ q i = true ∧ k = ((List.range i).filter q).length := by
  have hm : i ∈ (List.range n).filter q := List.mem_of_getElem? h
  rw [List.mem_filter, List.mem_range] at hm
  refine ⟨hm.1, hm.2, ?_⟩
  have h2 := filter_range_split q hm.1 hm.2
  have hnd : ((List.range n).filter q).Nodup := List.nodup_range.filter _
  obtain ⟨hk, hk'⟩ := List.getElem?_eq_some_iff.mp h
  obtain ⟨hk2, hk2'⟩ := List.getElem?_eq_some_iff.mp h2
  exact (hnd.getElem_inj_iff).mp (hk'.trans hk2'.symm)

namespace Res
variable {α β : Type}

@[simp] theorem each_nil (f : α → Res β) : each f [] = .ok [] := rfl

theorem each_cons_ok {f : α → Res β} {a : α} {as : List α} {b : β} {bs : List β}
    (h : f a = .ok b) (hs : each f as = .ok bs) : each f (a :: as) = .ok (b :: bs) := by
  simp only [each, h, hs, Res.bind_ok, Res.pure_eq]

theorem each_ok_iff {f : α → Res β} {as : List α} : ∀ {bs : List β},
    each f as = .ok bs ↔ List.Forall₂ (fun a b => f a = .ok b) as bs := by
  induction as with
  | nil => intro bs; simp [each, eq_comm]
  | cons a as ih =>
    intro bs
    constructor
    · intro h
      simp only [each, Res.bind_eq_ok] at h
      obtain ⟨b, hb, bs', hbs, h⟩ := h
      simp only [Res.pure_eq, Res.ok.injEq] at h
      subst h
      exact .cons hb (ih.mp hbs)
    · intro h
      cases h with
      | cons hb hbs => exact each_cons_ok hb (ih.mpr hbs)

theorem each_range {f : α → Res β} {n : ℕ} {P : ℕ → α} {E : ℕ → β}
    (h : ∀ i, i < n → f (P i) = .ok (E i)) :
    each f ((List.range n).map P) = .ok ((List.range n).map E) := by
  rw [each_ok_iff, List.forall₂_map_left_iff, List.forall₂_map_right_iff]
  rw [List.forall₂_same]
  intro i hi
  exact h i (List.mem_range.mp hi)

end Res

namespace MC
variable {F σ : Type} [Fl F] [Add F] [Sub F] [Mul F] [Div F] [Neg F]

/-! ## One date -/

theorem collect_eq (df : F) (l : List (F × F × F)) :
    collect df l = ((l.filter (fun x => Fl.gt x.2.1 (lit 0))).map (·.1),
      (l.filter (fun x => Fl.gt x.2.1 (lit 0))).map (fun x => x.2.2 * df),
      l.map (fun x => Fl.gt x.2.1 (lit 0))) := by
  induction l with
  | nil => rfl
  | cons x l ih =>
    obtain ⟨S, e, c⟩ := x
    unfold collect
    rw [ih]
    by_cases h : Fl.gt e (lit 0) = true
    · simp [h]
    · simp [h]

theorem dot_ok {a b : List F} {v : F} : dot a b = .ok v ↔ Fitted a b v := by
  unfold dot Fitted
  split
  · rename_i h
    simp [h, eq_comm]
  · rename_i h
    simp [h]

theorem exerciseOrContinue_spec {pay : F → Res F} {df : F} {bases : List (List F)}
    {coeffs : List F} {entries : List (F × Bool × F)} : ∀ {idx : ℕ} {out : List F},
    exerciseOrContinue pay df bases coeffs entries idx = .ok out →
    out.length = entries.length ∧ ∀ (i : ℕ) (S : F) (b : Bool) (c : F),
      entries[i]? = some (S, b, c) →
      (b = false → out[i]? = some (c * df)) ∧
      (b = true → ∃ e row fit, pay S = .ok e ∧
        bases[idx + ((entries.take i).filter (fun x => x.2.1)).length]? = some row ∧
        Fitted row coeffs fit ∧ out[i]? = some (if Fl.gt e fit then e else c * df)) := by
  induction entries with
  | nil =>
    intro idx out h
    simp only [exerciseOrContinue, Res.ok.injEq] at h
    subst h
    simp
  | cons x rest ih =>
    intro idx out h
    obtain ⟨S, b, c⟩ := x
    unfold exerciseOrContinue at h
    cases b with
    | true =>
      simp only [if_true, Res.bind_eq_ok, Res.pure_eq, Res.ok.injEq] at h
      obtain ⟨e, he, row, hrow, fit, hfit, tail, htail, rfl⟩ := h
      obtain ⟨hl, hs⟩ := ih htail
      refine ⟨by simp [hl], ?_⟩
      intro i S' b' c' hi
      cases i with
      | zero =>
        simp only [List.getElem?_cons_zero, Option.some.injEq, Prod.mk.injEq] at hi
        obtain ⟨rfl, rfl, rfl⟩ := hi
        refine ⟨by simp, fun _ => ⟨e, row, fit, he, ?_, dot_ok.mp hfit, by simp⟩⟩
        unfold vget at hrow
        simp only [List.take_zero, List.filter_nil, List.length_nil, Nat.add_zero]
        split at hrow
        · rename_i h'; simp only [Res.ok.injEq] at hrow; subst hrow; exact h'
        · cases hrow
      | succ i =>
        simp only [List.getElem?_cons_succ] at hi
        obtain ⟨h1, h2⟩ := hs i S' b' c' hi
        refine ⟨fun hb => by simpa using h1 hb, fun hb => ?_⟩
        obtain ⟨e', row', fit', g1, g2, g3, g4⟩ := h2 hb
        refine ⟨e', row', fit', g1, ?_, g3, by simpa using g4⟩
        rw [← g2, List.take_succ_cons, List.filter_cons_of_pos rfl, List.length_cons]
        congr 1
        omega
    | false =>
      simp only [Bool.false_eq_true, if_false, Res.bind_eq_ok, Res.pure_eq, Res.ok.injEq] at h
      obtain ⟨tail, htail, rfl⟩ := h
      obtain ⟨hl, hs⟩ := ih htail
      refine ⟨by simp [hl], ?_⟩
      intro i S' b' c' hi
      cases i with
      | zero =>
        simp only [List.getElem?_cons_zero, Option.some.injEq, Prod.mk.injEq] at hi
        obtain ⟨rfl, rfl, rfl⟩ := hi
        exact ⟨fun _ => by simp, by simp⟩
      | succ i =>
        simp only [List.getElem?_cons_succ] at hi
        obtain ⟨h1, h2⟩ := hs i S' b' c' hi
        refine ⟨fun hb => by simpa using h1 hb, fun hb => ?_⟩
        obtain ⟨e', row', fit', g1, g2, g3, g4⟩ := h2 hb
        refine ⟨e', row', fit', g1, ?_, g3, by simpa using g4⟩
        rw [← g2, List.take_succ_cons, List.filter_cons_of_neg (by simp)]

theorem filter_map_range {α : Type} (n : ℕ) (f : ℕ → α) (p : α → Bool) :
    ((List.range n).map f).filter p = ((List.range n).filter (fun i => p (f i))).map f := by
  rw [List.filter_map]; rfl

/-- What one date does, for path-indexed functions. -/
theorem lsmcUpdate_spec {strat : Lsmc F} {pay : F → Res F} {df : F} {n : ℕ} {P E C : ℕ → F}
    {out : List F} (hE : ∀ i, i < n → pay (P i) = .ok (E i))
    (h : lsmcUpdate strat pay df ((List.range n).map P) ((List.range n).map E)
      ((List.range n).map C) = .ok out) :
    ∃ (X : ℕ → Prop) (C' : ℕ → F), out = (List.range n).map C' ∧
      DateRule strat pay n P (fun i => C i * df) X ∧
      ∀ i, i < n → (X i → C' i = E i) ∧
        (¬ X i → (∃ l, l < n ∧ InTheMoney pay (P l)) → C' i = C i * df) ∧
        (¬ X i → (¬ ∃ l, l < n ∧ InTheMoney pay (P l)) → C' i = C i) := by
  classical
  unfold lsmcUpdate at h
  rw [List.zip_map', List.zip_map', collect_eq] at h
  dsimp only at h
  rw [filter_map_range] at h
  dsimp only at h
  rw [List.map_map, List.map_map, List.map_map, List.zip_map', List.zip_map'] at h
  simp only [Function.comp_def] at h
  set I := (List.range n).filter (fun i => Fl.gt (E i) (lit 0)) with hI
  have hmem : ∀ i, i ∈ I ↔ i < n ∧ InTheMoney pay (P i) := by
    intro i
    rw [hI, List.mem_filter, List.mem_range]
    constructor
    · rintro ⟨h1, h2⟩; exact ⟨h1, E i, hE i h1, h2⟩
    · rintro ⟨h1, e, h2, h3⟩
      rw [hE i h1] at h2; cases h2; exact ⟨h1, h3⟩
  have hpw : I.Pairwise (· < ·) := List.pairwise_lt_range.filter _
  by_cases hemp : I = []
  · rw [hemp] at h
    simp only [List.map_nil, List.isEmpty_nil, if_true, Res.ok.injEq] at h
    refine ⟨fun _ => False, C, h.symm, ⟨I, hpw, hmem, fun i hi => hi.elim, fun h => absurd hemp h⟩,
      ?_⟩
    intro i hi
    refine ⟨fun h => h.elim, fun _ hl => ?_, fun _ _ => rfl⟩
    obtain ⟨l, hl⟩ := hl
    have := (hmem l).mpr hl
    rw [hemp] at this
    simp at this
  · have hne : (List.map P I).isEmpty = false := by
      cases hI' : I with
      | nil => exact absurd hI' hemp
      | cons a t => rfl
    rw [if_neg (by rw [hne]; simp)] at h
    simp only [Res.bind_eq_ok] at h
    obtain ⟨bases, hb, coeffs, hc, h⟩ := h
    obtain ⟨hlen, hs⟩ := exerciseOrContinue_spec h
    have hact : ∃ l, l < n ∧ InTheMoney pay (P l) := by
      obtain ⟨l, hl⟩ := List.exists_mem_of_ne_nil I hemp
      exact ⟨l, (hmem l).mp hl⟩
    have hlen' : out.length = n := by simpa using hlen
    have hentry : ∀ i, i < n → (((List.range n).map
        (fun x => (P x, Fl.gt (E x) (lit 0), C x)))[i]? = some (P i, Fl.gt (E i) (lit 0), C i)) := by
      intro i hi; simp [hi]
    have htake : ∀ i, i < n → ((((List.range n).map
        (fun x => (P x, Fl.gt (E x) (lit 0), C x))).take i).filter (fun x => x.2.1)).length =
        ((List.range i).filter (fun x => Fl.gt (E x) (lit 0))).length := by
      intro i hi
      rw [← List.map_take, List.take_range, min_eq_left hi.le, filter_map_range, List.length_map]
    let X : ℕ → Prop := fun i => i < n ∧ ∃ row fit, Fl.gt (E i) (lit 0) = true ∧
      bases[((List.range i).filter (fun x => Fl.gt (E x) (lit 0))).length]? = some row ∧
      Fitted row coeffs fit ∧ Fl.gt (E i) fit = true
    refine ⟨X, fun i => out.getD i (lit 0), ?_, ⟨I, hpw, hmem, ?_, fun _ =>
      ⟨bases, coeffs, hb, hc, ?_⟩⟩, ?_⟩
    · have := list_eq_map_range out (lit 0)
      rw [hlen'] at this
      exact this
    · rintro i ⟨hi, row, fit, h1, -⟩
      rw [hI, List.mem_filter, List.mem_range]
      exact ⟨hi, h1⟩
    · intro k i hk
      obtain ⟨hi, hq, rfl⟩ := filter_range_getElem _ hk
      obtain ⟨-, h2⟩ := hs i _ _ _ (hentry i hi)
      obtain ⟨e, row, fit, g1, g2, g3, -⟩ := h2 hq
      rw [hE i hi] at g1; cases g1
      rw [htake i hi, Nat.zero_add] at g2
      refine ⟨E i, row, fit, hE i hi, g2, g3, ?_⟩
      constructor
      · rintro ⟨-, row', fit', -, e2, e3, e4⟩
        rw [g2] at e2; cases e2
        have : fit' = fit := e3.2.trans g3.2.symm
        rw [← this]; exact e4
      · intro hgt; exact ⟨hi, row, fit, hq, g2, g3, hgt⟩
    · intro i hi
      obtain ⟨h1, h2⟩ := hs i _ _ _ (hentry i hi)
      have hget : ∀ v, out[i]? = some v → out.getD i (lit 0) = v := by
        intro v hv; rw [List.getD_eq_getElem?_getD, hv]; rfl
      refine ⟨?_, ?_, fun _ h => absurd hact h⟩
      · rintro ⟨-, row', fit', hq, e2, e3, e4⟩
        obtain ⟨e, row, fit, g1, g2, g3, g4⟩ := h2 hq
        rw [hE i hi] at g1; cases g1
        rw [htake i hi, Nat.zero_add] at g2
        rw [g2] at e2; cases e2
        have : fit' = fit := e3.2.trans g3.2.symm
        rw [this] at e4
        rw [if_pos e4] at g4
        exact hget _ g4
      · intro hX _
        by_cases hq : Fl.gt (E i) (lit 0) = true
        · obtain ⟨e, row, fit, g1, g2, g3, g4⟩ := h2 hq
          rw [hE i hi] at g1; cases g1
          rw [htake i hi, Nat.zero_add] at g2
          rw [if_neg] at g4
          · exact hget _ g4
          · intro hgt; exact hX ⟨hi, row, fit, hq, g2, g3, hgt⟩
        · exact hget _ (h1 (by simpa using hq))

/-! ## Backward induction -/

theorem activeDates_self (pay : F → Res F) (N : ℕ) (S : ℕ → ℕ → F) (j : ℕ) :
    activeDates pay N S j j = 0 := by simp [activeDates]

theorem activeDates_succ_of (pay : F → Res F) (N : ℕ) (S : ℕ → ℕ → F) {j k : ℕ} (h : j < k)
    (ha : Active pay N S j) : activeDates pay N S j k = activeDates pay N S (j + 1) k + 1 := by
  classical
  unfold activeDates
  rw [Finset.card_filter, Finset.card_filter, Finset.sum_eq_sum_Ico_succ_bot h, if_pos ha]
  omega

theorem activeDates_succ_of_not (pay : F → Res F) (N : ℕ) (S : ℕ → ℕ → F) {j k : ℕ} (h : j < k)
    (ha : ¬ Active pay N S j) : activeDates pay N S j k = activeDates pay N S (j + 1) k := by
  classical
  unfold activeDates
  rw [Finset.card_filter, Finset.card_filter, Finset.sum_eq_sum_Ico_succ_bot h, if_neg ha]
  omega

theorem activeDates_congr (pay : F → Res F) (N : ℕ) {S S' : ℕ → ℕ → F} {j k : ℕ}
    (h : ∀ l, j ≤ l → l < k → ∀ i, i < N → S i l = S' i l) :
    activeDates pay N S j k = activeDates pay N S' j k := by
  classical
  unfold activeDates
  congr 1
  apply Finset.filter_congr
  intro l hl
  rw [Finset.mem_Ico] at hl
  unfold Active
  constructor
  · rintro ⟨i, hi, h1⟩; exact ⟨i, hi, by rw [← h l hl.1 hl.2 i hi]; exact h1⟩
  · rintro ⟨i, hi, h1⟩; exact ⟨i, hi, by rw [h l hl.1 hl.2 i hi]; exact h1⟩

theorem activeDates_full (pay : F → Res F) (N : ℕ) {S : ℕ → ℕ → F} {j k : ℕ}
    (h : ∀ l, j ≤ l → l < k → Active pay N S l) : activeDates pay N S j k = k - j := by
  classical
  unfold activeDates
  rw [Finset.filter_true_of_mem]
  · simp
  · intro l hl; rw [Finset.mem_Ico] at hl; exact h l hl.1 hl.2

theorem Stops_congr {m : ℕ} {D D' : ℕ → Prop} {j k : ℕ} (h : ∀ l, j ≤ l → (D l ↔ D' l))
    (hs : Stops m D j k) : Stops m D' j k := by
  obtain ⟨h1, h2, h3, h4⟩ := hs
  exact ⟨h1, h2, fun l hl hk => by rw [← h l hl]; exact h3 l hl hk,
    fun hk => (h k h1).mp (h4 hk)⟩

/-- At maturity. -/
theorem run_start {strat : Lsmc F} {pay : F → Res F} {N m : ℕ} {df : F} {S : ℕ → ℕ → F}
    {value : ℕ → ℕ → F} (D : ℕ → ℕ → Prop) (h : ∀ i, i < N → pay (S i m) = .ok (value m i)) :
    LsmcRun strat pay N m df (activeDates pay N S) S m D value := by
  constructor
  · intro j h1 h2; omega
  · intro j h1 h2 i hi
    have : j = m := by omega
    subst this
    exact ⟨j, value j i, ⟨le_rfl, le_rfl, fun l a b => by omega, fun h => by omega⟩, h i hi,
      by rw [activeDates_self]; rfl⟩

/-- One date earlier. -/
theorem run_step {strat : Lsmc F} {pay : F → Res F} {N m : ℕ} {df : F} {S : ℕ → ℕ → F}
    {value : ℕ → ℕ → F} {D : ℕ → ℕ → Prop} {j : ℕ} (hj : j < m)
    (hrun : LsmcRun strat pay N m df (activeDates pay N S) S (j + 1) D value)
    {E : ℕ → F} (hE : ∀ i, i < N → pay (S i j) = .ok (E i)) {out : List F}
    (h : lsmcUpdate strat pay df ((List.range N).map (fun i => S i j)) ((List.range N).map E)
      ((List.range N).map (value (j + 1))) = .ok out) :
    ∃ D' value', LsmcRun strat pay N m df (activeDates pay N S) S j D' value' ∧
      out = (List.range N).map (value' j) := by
  obtain ⟨X, C', rfl, hrule, hC⟩ := lsmcUpdate_spec hE h
  have hD : ∀ i l, j + 1 ≤ l → (D l i ↔ (Function.update D j X) l i) := by
    intro i l hl
    rw [Function.update_of_ne (by omega)]
  refine ⟨Function.update D j X, Function.update value j C', ⟨?_, ?_⟩, by simp⟩
  · intro l hl hlm
    rw [Function.update_of_ne (show l + 1 ≠ j by omega)]
    by_cases hlj : l = j
    · subst hlj
      rw [Function.update_self]
      exact hrule
    · rw [Function.update_of_ne hlj]
      exact hrun.dates l (by omega) hlm
  · intro l hl hlm i hi
    by_cases hlj : l = j
    · subst hlj
      rw [Function.update_self]
      by_cases hX : X i
      · refine ⟨l, E i, ⟨le_rfl, hlm, fun a b c => by omega, fun _ => ?_⟩, hE i hi, ?_⟩
        · dsimp only; rw [Function.update_self]; exact hX
        · rw [activeDates_self, (hC i hi).1 hX]; rfl
      · obtain ⟨k, e, hs, hp, hv⟩ := hrun.values (l + 1) le_rfl hj i hi
        refine ⟨k, e, ⟨by have := hs.1; omega, hs.2.1, ?_, ?_⟩, hp, ?_⟩
        · intro a ha hak
          dsimp only
          by_cases hal : a = l
          · subst hal; rw [Function.update_self]; exact hX
          · rw [Function.update_of_ne hal]; exact hs.2.2.1 a (by omega) hak
        · intro hk
          have := hs.1
          show Function.update D l X k i
          rw [Function.update_of_ne (by omega)]; exact hs.2.2.2 hk
        · have hlk : l < k := hs.1
          by_cases hact : Active pay N S l
          · rw [activeDates_succ_of pay N S hlk hact, Function.iterate_succ_apply', ← hv]
            exact (hC i hi).2.1 hX hact
          · rw [activeDates_succ_of_not pay N S hlk hact, ← hv]
            exact (hC i hi).2.2 hX hact
    · rw [Function.update_of_ne hlj]
      obtain ⟨k, e, hs, hp, hv⟩ := hrun.values l (by omega) hlm i hi
      exact ⟨k, e, Stops_congr (fun a ha => hD i a (by omega)) hs, hp, hv⟩

/-- Only the prices from `j₀` on matter. -/
theorem run_congr {strat : Lsmc F} {pay : F → Res F} {N m : ℕ} {df : F} {S S' : ℕ → ℕ → F}
    {value : ℕ → ℕ → F} {D : ℕ → ℕ → Prop} {j₀ : ℕ} (hS : ∀ l, j₀ ≤ l → ∀ i, S i l = S' i l)
    (hrun : LsmcRun strat pay N m df (activeDates pay N S) S j₀ D value) :
    LsmcRun strat pay N m df (activeDates pay N S') S' j₀ D value := by
  constructor
  · intro j h1 h2
    have := hrun.dates j h1 h2
    rwa [show (fun i => S' i j) = (fun i => S i j) from funext fun i => (hS j h1 i).symm]
  · intro j h1 h2 i hi
    obtain ⟨k, e, hs, hp, hv⟩ := hrun.values j h1 h2 i hi
    refine ⟨k, e, hs, ?_, ?_⟩
    · rw [← hS k (h1.trans hs.1) i]; exact hp
    · rw [hv, activeDates_congr pay N (fun l hl _ i _ => hS l (h1.trans hl) i)]

theorem vget_ok {α : Type} {v : List α} {i : ℕ} {a : α} : vget v i = .ok a ↔ v[i]? = some a := by
  unfold vget
  split
  · rename_i x hx; rw [hx]; simp
  · rename_i hx; rw [hx]; simp

theorem column_eq {paths : List (List F)} {j : ℕ} {col : List F}
    (h : Res.each (fun row => vget row j) paths = .ok col) :
    col = (List.range paths.length).map (fun i => priceAt paths i (j + 1)) := by
  rw [Res.each_ok_iff] at h
  apply List.ext_getElem
  · simp [h.length_eq]
  · intro i h1 h2
    have hi : i < paths.length := by rw [h.length_eq]; exact h1
    have := List.forall₂_iff_get.mp h |>.2 i hi h1
    simp only [List.get_eq_getElem] at this
    rw [vget_ok] at this
    simp [priceAt, List.getD_eq_getElem?_getD, hi, this]

theorem each_eq_range {f : F → Res F} {n : ℕ} {P : ℕ → F} {out : List F}
    (h : Res.each f ((List.range n).map P) = .ok out) :
    ∃ E : ℕ → F, out = (List.range n).map E ∧ ∀ i, i < n → f (P i) = .ok (E i) := by
  rw [Res.each_ok_iff] at h
  have hl : out.length = n := by simpa using h.length_eq.symm
  refine ⟨fun i => out.getD i (lit 0), ?_, ?_⟩
  · have := list_eq_map_range out (lit 0); rwa [hl] at this
  · intro i hi
    have := List.forall₂_iff_get.mp h |>.2 i (by simpa using hi) (by omega)
    simp only [List.get_eq_getElem, List.getElem_map, List.getElem_range] at this
    rw [this]
    simp [List.getD_eq_getElem?_getD, hl, hi]

theorem standardLoop_run {strat : Lsmc F} {pay : F → Res F} {df : F} {paths : List (List F)}
    {m : ℕ} : ∀ {k : ℕ} (_ : k < m) {value : ℕ → ℕ → F} {D : ℕ → ℕ → Prop} {out : List F}
    (_ : LsmcRun strat pay paths.length m df (activeDates pay paths.length (priceAt paths))
      (priceAt paths) (k + 1) D value)
    (_ : standardLoop strat pay df paths k ((List.range paths.length).map (value (k + 1))) = .ok out),
    ∃ D' value', LsmcRun strat pay paths.length m df (activeDates pay paths.length (priceAt paths))
      (priceAt paths) 1 D' value' ∧ out = (List.range paths.length).map (value' 1) := by
  intro k
  induction k with
  | zero =>
    intro _ value D out hrun h
    simp only [standardLoop, Res.ok.injEq] at h
    exact ⟨D, value, hrun, h.symm⟩
  | succ k ih =>
    intro hk value D out hrun h
    simp only [standardLoop, standardStep, Res.bind_eq_ok] at h
    obtain ⟨cash', ⟨col, hcol, ex, hex, hupd⟩, h⟩ := h
    rw [column_eq hcol] at hex hupd
    obtain ⟨E, rfl, hE⟩ := each_eq_range hex
    obtain ⟨D', value', hrun', rfl⟩ := run_step (j := k + 1) (by omega) hrun hE hupd
    exact ih (by omega) hrun' h

theorem mean_ok {v : List F} {x : F} (h : mean v = .ok x) :
    v ≠ [] ∧ x = v.foldl (· + ·) (lit 0) / lit (v.length : ℚ) := by
  unfold mean at h
  split at h
  · cases h
  · rename_i hv
    exact ⟨by simpa using hv, by simpa using h.symm⟩

theorem toInt32_of_le {n : ℕ} (h : n ≤ INT_MAX) : toInt32 n = n := by simp [toInt32, h]

/-- `standardPrice` after the simulation. -/
theorem standardValue_run {strat : Lsmc F} {pay : F → Res F} {steps : ℕ} {df : F}
    {paths : List (List F)} {v : F} (hI : steps ≤ INT_MAX)
    (h : standardValue strat pay steps df paths = .ok v) :
    0 < steps ∧ paths ≠ [] ∧ ∃ D value,
      LsmcRun strat pay paths.length steps df (activeDates pay paths.length (priceAt paths))
        (priceAt paths) 1 D value ∧
      v = ((List.range paths.length).map (value 1)).foldl (· + ·) (lit 0) /
        lit (paths.length : ℚ) * df := by
  unfold standardValue at h
  by_cases h0 : steps = 0
  · rw [if_pos h0] at h; simp at h
  rw [if_neg h0] at h
  simp only [Res.bind_eq_ok, Res.pure_eq, Res.ok.injEq] at h
  obtain ⟨col, hcol, cash, hcash, cash', hloop, x, hm, rfl⟩ := h
  rw [toInt32_of_le hI, if_neg (by simp only [INT_MAX] at hI; omega)] at hloop
  rw [column_eq hcol] at hcash
  obtain ⟨E, rfl, hE⟩ := each_eq_range hcash
  have e1 : steps - 1 + 1 = steps := by omega
  have e2 : ((steps : Int) - 1).toNat = steps - 1 := by omega
  rw [e1] at hE
  rw [e2] at hloop
  have hstart : LsmcRun strat pay paths.length steps df
      (activeDates pay paths.length (priceAt paths)) (priceAt paths) steps (fun _ _ => False)
      (fun _ => E) := run_start _ hE
  obtain ⟨D, value, hrun, rfl⟩ := standardLoop_run (k := steps - 1) (m := steps) (by omega)
    (value := fun _ => E) (D := fun _ _ => False) (by rw [e1]; exact hstart) hloop
  obtain ⟨hne, rfl⟩ := mean_ok hm
  refine ⟨by omega, ?_, D, value, hrun, by simp⟩
  rintro rfl
  simp at hne

/-! ## Simulation -/

theorem bind_ok_iff {α β : Type} {x : Eff σ α} {f : α → Eff σ β} {s s' : σ} {b : β} :
    (x >>= f) s = (.ok b, s') ↔ ∃ a s₁, x s = (.ok a, s₁) ∧ f a s₁ = (.ok b, s') := by
  rw [Eff.bind_apply]
  rcases hx : x s with ⟨r, s₁⟩
  cases r with
  | ok a => simp
  | throw e => simp
  | ub => simp

theorem simulateLoop_iff {α : Type} {sim : Eff σ α} : ∀ {n : ℕ} {s s' : σ} {l : List α},
    Eff.unfoldN (fun (_ : Unit) => do let x ← sim; return ((), x)) n () s = (.ok l, s') ↔
      Draws sim s l s' ∧ l.length = n := by
  intro n
  induction n with
  | zero =>
    intro s s' l
    constructor
    · intro h
      simp only [Eff.unfoldN, Eff.pure_apply, Prod.mk.injEq, Res.ok.injEq] at h
      obtain ⟨rfl, rfl⟩ := h
      exact ⟨.nil _, rfl⟩
    · rintro ⟨h, hl⟩
      cases h with
      | nil => rfl
      | cons => simp at hl
  | succ n ih =>
    intro s s' l
    unfold Eff.unfoldN
    rw [bind_ok_iff]
    constructor
    · rintro ⟨x, s₁, hx, h⟩
      rw [bind_ok_iff] at hx
      obtain ⟨y, s₂, hy, hx⟩ := hx
      simp only [Eff.pure_apply, Prod.mk.injEq, Res.ok.injEq] at hx
      obtain ⟨rfl, rfl⟩ := hx
      rw [bind_ok_iff] at h
      obtain ⟨rest, s₃, hr, h⟩ := h
      simp only [Eff.pure_apply, Prod.mk.injEq, Res.ok.injEq] at h
      obtain ⟨rfl, rfl⟩ := h
      obtain ⟨hd, hl⟩ := ih.mp hr
      exact ⟨.cons hy hd, by simp [hl]⟩
    · rintro ⟨h, hl⟩
      cases h with
      | nil => simp at hl
      | @cons _ s₁ _ a as hy hd =>
        refine ⟨((), a), s₁, ?_, ?_⟩
        · rw [bind_ok_iff]; exact ⟨a, s₁, hy, rfl⟩
        · rw [bind_ok_iff]
          exact ⟨as, s', ih.mpr ⟨hd, by simpa using hl⟩, rfl⟩

theorem simulateN_iff {α : Type} {sim : Eff σ α} {N : ℕ} (hN : N ≤ INT_MAX) {s s' : σ}
    {l : List α} : simulateN sim N s = (.ok l, s') ↔ Draws sim s l s' ∧ l.length = N := by
  unfold simulateN
  rw [Eff.unfoldInt_of_le hN]
  exact simulateLoop_iff

theorem simulateN_le {α : Type} {sim : Eff σ α} {N : ℕ} {s s' : σ}
    {l : List α} (h : simulateN sim N s = (.ok l, s')) : N ≤ INT_MAX := by
  unfold simulateN Eff.unfoldInt at h
  rw [bind_ok_iff] at h
  obtain ⟨l', s₁, -, h⟩ := h
  split at h
  · assumption
  · simp at h

theorem simulateRow_draws {src : PathSource σ F} {T : F} {s s' : σ} {paths : List (List F)}
    (h : Draws (simulateRow src T) s paths s') :
    Draws (src.simulatePrices T) s paths s' ∧ ∀ p ∈ paths, p.length = src.steps := by
  induction h with
  | nil => exact ⟨.nil _, by simp⟩
  | cons h _ ih =>
    unfold simulateRow at h
    rw [bind_ok_iff] at h
    obtain ⟨p, s₂, hp, h⟩ := h
    split at h
    · rename_i hl
      simp only [Eff.pure_apply, Prod.mk.injEq, Res.ok.injEq] at h
      obtain ⟨rfl, rfl⟩ := h
      exact ⟨.cons hp ih.1, by
        intro q hq
        rcases List.mem_cons.mp hq with rfl | hq
        · exact hl
        · exact ih.2 q hq⟩
    · simp at h

theorem draws_simulateRow {src : PathSource σ F} {T : F} {s s' : σ} {paths : List (List F)}
    (h : Draws (src.simulatePrices T) s paths s') (hl : ∀ p ∈ paths, p.length = src.steps) :
    Draws (simulateRow src T) s paths s' := by
  induction h with
  | nil => exact .nil _
  | cons h _ ih =>
    refine .cons ?_ (ih fun p hp => hl p (List.mem_cons_of_mem _ hp))
    unfold simulateRow
    rw [Eff.bind_of_ok h, if_pos (hl _ (List.mem_cons_self ..))]
    rfl

/-- `standardPrice`, when it returns. -/
theorem americanStandard_run {strat : Lsmc F} {src : PathSource σ F} {getR : Eff σ F}
    {pay : F → Res F} {T r v : F} {N : ℕ} {s s' : σ} (hI : src.steps ≤ INT_MAX)
    (hR : getR s = (.ok r, s))
    (h : americanStandard strat src getR pay T N s = (.ok v, s')) :
    0 < N ∧ 0 < src.steps ∧ ∃ paths, Draws (src.simulatePrices T) s paths s' ∧ paths.length = N ∧
      (∀ p ∈ paths, p.length = src.steps) ∧ ∃ D value,
      LsmcRun strat pay N src.steps (Fl.exp (-r * (T / lit (src.steps : ℚ))))
        (activeDates pay N (priceAt paths)) (priceAt paths) 1 D value ∧
      v = ((List.range N).map (value 1)).foldl (· + ·) (lit 0) / lit (N : ℚ) *
        Fl.exp (-r * (T / lit (src.steps : ℚ))) := by
  unfold americanStandard at h
  simp only [] at h
  rw [Eff.bind_of_ok hR, bind_ok_iff] at h
  obtain ⟨paths, s₁, hsim, h⟩ := h
  simp only [Eff.lift_apply, Prod.mk.injEq] at h
  obtain ⟨h, rfl⟩ := h
  have hN := simulateN_le hsim
  obtain ⟨hd, hl⟩ := (simulateN_iff hN).mp hsim
  obtain ⟨hd, hlen⟩ := simulateRow_draws hd
  obtain ⟨h1, h2, D, value, h3, h4⟩ := standardValue_run hI h
  subst hl
  exact ⟨List.length_pos_of_ne_nil h2, h1, paths, hd, rfl, hlen, D, value, h3, h4⟩

/-! ## Brownian bridge -/

theorem bridgeEach {back : F → Eff σ F} {pay : F → Res F} : ∀ {xs : List F} {s s' : σ}
    {rows : List (F × F)},
    Eff.each (fun S => do
      let S' ← back S
      let e ← Eff.lift (pay S')
      return (S', e)) xs s = (.ok rows, s') →
    Chained back s xs (rows.map (·.1)) s' ∧ ∀ x ∈ rows, pay x.1 = .ok x.2 := by
  intro xs
  induction xs with
  | nil =>
    intro s s' rows h
    simp only [Eff.each, Eff.pure_apply, Prod.mk.injEq, Res.ok.injEq] at h
    obtain ⟨rfl, rfl⟩ := h
    exact ⟨.nil _, by simp⟩
  | cons x xs ih =>
    intro s s' rows h
    unfold Eff.each at h
    rw [bind_ok_iff] at h
    obtain ⟨y, s₁, hy, h⟩ := h
    rw [bind_ok_iff] at hy
    obtain ⟨S', s₂, hS, hy⟩ := hy
    rw [bind_ok_iff] at hy
    obtain ⟨e, s₃, he, hy⟩ := hy
    simp only [Eff.lift_apply, Eff.pure_apply, Prod.mk.injEq, Res.ok.injEq] at he hy
    obtain ⟨he, rfl⟩ := he
    obtain ⟨rfl, rfl⟩ := hy
    rw [bind_ok_iff] at h
    obtain ⟨rest, s₄, hr, h⟩ := h
    simp only [Eff.pure_apply, Prod.mk.injEq, Res.ok.injEq] at h
    obtain ⟨rfl, rfl⟩ := h
    obtain ⟨h1, h2⟩ := ih hr
    refine ⟨.cons hS h1, ?_⟩
    intro z hz
    rcases List.mem_cons.mp hz with rfl | hz
    · exact he
    · exact h2 z hz

theorem Chained_length {α β : Type} {f : α → Eff σ β} {s s' : σ} {xs : List α} {ys : List β}
    (h : Chained f s xs ys s') : ys.length = xs.length := by
  induction h with
  | nil => rfl
  | cons _ _ ih => simp [ih]

theorem bridgeLoop_run {strat : Lsmc F} {src : PathSource σ F} {pay : F → Res F} {dt df : F}
    {N m : ℕ} : ∀ {k : ℕ} (_ : k < m) {S : ℕ → ℕ → F} {value : ℕ → ℕ → F} {D : ℕ → ℕ → Prop}
    {out : List F × List F} {s s' : σ}
    (_ : LsmcRun strat pay N m df (activeDates pay N S) S (k + 1) D value)
    (_ : bridgeLoop strat src pay dt df k ((List.range N).map (fun i => S i (k + 1)),
      (List.range N).map (value (k + 1))) s = (.ok out, s')),
    ∃ (S' : ℕ → ℕ → F) (D' : ℕ → ℕ → Prop) (value' : ℕ → ℕ → F) (st : ℕ → σ),
      LsmcRun strat pay N m df (activeDates pay N S') S' 1 D' value' ∧
      out.2 = (List.range N).map (value' 1) ∧ (∀ l, k + 1 ≤ l → ∀ i, S' i l = S i l) ∧
      st (k + 1) = s ∧ st 1 = s' ∧
      ∀ j, 1 ≤ j → j ≤ k → Chained
        (fun x => src.simulatePriceBackward x (lit (j : ℚ) * dt) (lit ((j + 1 : ℕ) : ℚ) * dt))
        (st (j + 1)) ((List.range N).map (fun i => S' i (j + 1)))
        ((List.range N).map (fun i => S' i j)) (st j) := by
  intro k
  induction k with
  | zero =>
    intro _ S value D out s s' hrun h
    simp only [bridgeLoop, Eff.pure_apply, Prod.mk.injEq, Res.ok.injEq] at h
    obtain ⟨rfl, rfl⟩ := h
    exact ⟨S, D, value, fun _ => s, hrun, rfl, fun _ _ _ => rfl, rfl, rfl, fun j h1 h2 => by omega⟩
  | succ k ih =>
    intro hk S value D out s s' hrun h
    unfold bridgeLoop bridgeStep at h
    rw [bind_ok_iff] at h
    obtain ⟨st', s₁, hst, h⟩ := h
    rw [bind_ok_iff] at hst
    obtain ⟨rows, s₂, hrows, hst⟩ := hst
    dsimp only at hst
    rw [bind_ok_iff] at hst
    obtain ⟨cash', s₃, hcash, hst⟩ := hst
    simp only [Eff.lift_apply, Eff.pure_apply, Prod.mk.injEq, Res.ok.injEq] at hcash hst
    obtain ⟨hcash, rfl⟩ := hcash
    obtain ⟨rfl, rfl⟩ := hst
    obtain ⟨hch, hpay⟩ := bridgeEach hrows
    have hlen : rows.length = N := by simpa using Chained_length hch
    -- the new prices as a function
    set P : ℕ → F := fun i => (rows.map (·.1)).getD i (lit 0) with hP
    set E : ℕ → F := fun i => (rows.map (·.2)).getD i (lit 0) with hEdef
    have e1 : rows.map (·.1) = (List.range N).map P := by
      have := list_eq_map_range (rows.map (·.1)) (lit 0)
      rwa [List.length_map, hlen] at this
    have e2 : rows.map (·.2) = (List.range N).map E := by
      have := list_eq_map_range (rows.map (·.2)) (lit 0)
      rwa [List.length_map, hlen] at this
    have hPE : ∀ i, i < N → pay (P i) = .ok (E i) := by
      intro i hi
      have hi' : i < rows.length := by omega
      have := hpay rows[i] (List.getElem_mem hi')
      simpa [hP, hEdef, List.getD_eq_getElem?_getD, hi'] using this
    let S1 : ℕ → ℕ → F := fun i l => if l = k + 1 then P i else S i l
    have hS1 : (fun i => S1 i (k + 1)) = P := by funext i; simp [S1]
    have hS1' : ∀ l, k + 1 + 1 ≤ l → ∀ i, S i l = S1 i l := by
      intro l hl i
      simp only [S1]
      rw [if_neg (by omega)]
    have hrun1 := run_congr hS1' hrun
    rw [e1, e2] at hcash
    rw [← hS1] at hcash
    obtain ⟨D2, value2, hrun2, rfl⟩ := run_step (j := k + 1) (by omega) hrun1
      (E := E) (fun i hi => by rw [congrFun hS1 i]; exact hPE i hi) hcash
    rw [e1, ← hS1] at h
    obtain ⟨S', D', value', st, g1, g2, g3, g4, g5, g6⟩ := ih (by omega) hrun2 h
    refine ⟨S', D', value', Function.update st (k + 1 + 1) s, g1, g2, ?_, by simp, ?_, ?_⟩
    · intro l hl i
      rw [g3 l (by omega) i, hS1' l hl i]
    · rw [Function.update_of_ne (by omega)]; exact g5
    · intro j h1 h2
      rw [Function.update_of_ne (show j ≠ k + 1 + 1 by omega)]
      by_cases hj : j = k + 1
      · subst hj
        rw [Function.update_self, g4]
        have a1 : (fun i => S' i (k + 1)) = P := by
          rw [← hS1]; funext i; exact g3 _ le_rfl i
        have a2 : (fun i => S' i (k + 1 + 1)) = fun i => S i (k + 1 + 1) := by
          funext i; rw [g3 _ (by omega) i, hS1' _ le_rfl i]
        rw [a1, a2, ← e1]
        exact hch
      · rw [Function.update_of_ne (by omega)]
        exact g6 j h1 (by omega)

/-- `brownianBridgePrice`, when it returns. -/
theorem americanBridge_run {strat : Lsmc F} {src : PathSource σ F} {getR : Eff σ F}
    {pay : F → Res F} {T r v : F} {N : ℕ} {s s' : σ} (hI : src.steps ≤ INT_MAX)
    (h0 : 0 < src.steps) (hR : getR s = (.ok r, s))
    (h : americanBridge strat src getR pay T N s = (.ok v, s')) :
    0 < N ∧ ∃ (S : ℕ → ℕ → F) (st : ℕ → σ),
      Draws (src.simulatePriceAtMaturity T) s ((List.range N).map (fun i => S i src.steps))
        (st src.steps) ∧ st 1 = s' ∧
      (∀ j, 1 ≤ j → j < src.steps → Chained
        (fun x => src.simulatePriceBackward x (lit (j : ℚ) * (T / lit (src.steps : ℚ)))
          (lit ((j + 1 : ℕ) : ℚ) * (T / lit (src.steps : ℚ))))
        (st (j + 1)) ((List.range N).map (fun i => S i (j + 1)))
        ((List.range N).map (fun i => S i j)) (st j)) ∧
      ∃ D value,
      LsmcRun strat pay N src.steps (Fl.exp (-r * (T / lit (src.steps : ℚ))))
        (activeDates pay N S) S 1 D value ∧
      v = ((List.range N).map (value 1)).foldl (· + ·) (lit 0) / lit (N : ℚ) *
        Fl.exp (-r * (T / lit (src.steps : ℚ))) := by
  unfold americanBridge at h
  simp only [] at h
  rw [Eff.bind_of_ok hR, bind_ok_iff] at h
  obtain ⟨paths, s₁, hsim, h⟩ := h
  rw [bind_ok_iff] at h
  obtain ⟨cash, s₂, hcash, h⟩ := h
  simp only [Eff.lift_apply, Prod.mk.injEq] at hcash
  obtain ⟨hcash, rfl⟩ := hcash
  rw [bind_ok_iff] at h
  obtain ⟨out, s₃, hloop, h⟩ := h
  rw [bind_ok_iff] at h
  obtain ⟨x, s₄, hm, h⟩ := h
  simp only [Eff.lift_apply, Eff.pure_apply, Prod.mk.injEq, Res.ok.injEq] at hm h
  obtain ⟨hm, rfl⟩ := hm
  obtain ⟨rfl, rfl⟩ := h
  have hN := simulateN_le hsim
  obtain ⟨hd, hl⟩ := (simulateN_iff hN).mp hsim
  rw [toInt32_of_le hI, if_neg (by simp only [INT_MAX] at hI; omega)] at hloop
  have e1 : src.steps - 1 + 1 = src.steps := by omega
  have e2 : ((src.steps : Int) - 1).toNat = src.steps - 1 := by omega
  rw [e2] at hloop
  have hp : paths = (List.range N).map (fun i => paths.getD i (lit 0)) := by
    have := list_eq_map_range paths (lit 0); rwa [hl] at this
  rw [hp] at hcash
  obtain ⟨E, rfl, hE⟩ := each_eq_range hcash
  have hstart : LsmcRun strat pay N src.steps (Fl.exp (-r * (T / lit (src.steps : ℚ))))
      (activeDates pay N (fun i _ => paths.getD i (lit 0))) (fun i _ => paths.getD i (lit 0))
      src.steps (fun _ _ => False) (fun _ => E) := run_start _ hE
  rw [hp] at hloop
  obtain ⟨S, D, value, st, g1, g2, g3, g4, g5, g6⟩ := bridgeLoop_run (k := src.steps - 1)
    (m := src.steps) (by omega) (S := fun i _ => paths.getD i (lit 0)) (value := fun _ => E)
    (D := fun _ _ => False) (by rw [e1]; exact hstart) hloop
  rw [e1] at g3 g4
  obtain ⟨hne, rfl⟩ := mean_ok hm
  rw [g2] at hne
  refine ⟨?_, S, st, ?_, g5, fun j h1 h2 => g6 j h1 (by omega), D, value, g1, by rw [g2]; simp⟩
  · rcases Nat.eq_zero_or_pos N with rfl | hpos
    · simp at hne
    · exact hpos
  · rw [show (fun i => S i src.steps) = (fun i => paths.getD i (lit 0)) from
      funext fun i => g3 _ le_rfl i, ← hp, g4]
    exact hd

/-! ## Termination without failure -/

theorem exerciseOrContinue_total {pay : F → Res F} {df : F} {bases : List (List F)}
    {coeffs : List F} (hrows : ∀ row ∈ bases, row.length = coeffs.length)
    (hpay : ∀ x, ∃ e, pay x = .ok e) : ∀ {entries : List (F × Bool × F)} {idx : ℕ},
    idx + (entries.filter (fun x => x.2.1)).length ≤ bases.length →
    ∃ out, exerciseOrContinue pay df bases coeffs entries idx = .ok out := by
  intro entries
  induction entries with
  | nil => intro idx _; exact ⟨[], rfl⟩
  | cons x rest ih =>
    intro idx hidx
    obtain ⟨S, b, c⟩ := x
    unfold exerciseOrContinue
    cases b with
    | true =>
      rw [List.filter_cons_of_pos rfl, List.length_cons] at hidx
      obtain ⟨out, hout⟩ := ih (idx := idx + 1) (by omega)
      obtain ⟨e, he⟩ := hpay S
      have hlt : idx < bases.length := by omega
      have hrow : vget bases idx = .ok bases[idx] := by rw [vget_ok]; simp [hlt]
      have hdot : dot bases[idx] coeffs = .ok ((List.zipWith (· * ·) bases[idx] coeffs).foldl
          (· + ·) (lit 0)) := by
        unfold dot; rw [if_pos (hrows _ (List.getElem_mem hlt))]
      simp [he, hrow, hdot, hout]
    | false =>
      rw [List.filter_cons_of_neg (by simp)] at hidx
      obtain ⟨out, hout⟩ := ih (idx := idx) hidx
      simp [hout]

theorem lsmcUpdate_total {strat : Lsmc F} (hs : Fits strat) {pay : F → Res F}
    (hpay : ∀ x, ∃ e, pay x = .ok e) (df : F) (n : ℕ) (P E C : ℕ → F) :
    ∃ out, lsmcUpdate strat pay df ((List.range n).map P) ((List.range n).map E)
      ((List.range n).map C) = .ok out := by
  unfold lsmcUpdate
  rw [List.zip_map', List.zip_map', collect_eq]
  dsimp only
  split
  · exact ⟨_, rfl⟩
  · obtain ⟨bases, coeffs, h1, h2, h3, h4⟩ := hs
      ((List.filter (fun x => Fl.gt x.2.1 (lit 0))
        ((List.range n).map (fun a => (P a, E a, C a)))).map (·.1))
      ((List.filter (fun x => Fl.gt x.2.1 (lit 0))
        ((List.range n).map (fun a => (P a, E a, C a)))).map (fun x => x.2.2 * df)) (by simp)
    rw [h1, Res.bind_ok, h2, Res.bind_ok]
    apply exerciseOrContinue_total h4 hpay
    rw [h3, List.map_map, List.zip_map', List.zip_map', filter_map_range, filter_map_range]
    simp [Function.comp_def]

theorem each_total {α β : Type} {f : α → Res β} {l : List α} (h : ∀ x ∈ l, ∃ y, f x = .ok y) :
    ∃ out, Res.each f l = .ok out ∧ out.length = l.length := by
  induction l with
  | nil => exact ⟨[], rfl, rfl⟩
  | cons x l ih =>
    obtain ⟨y, hy⟩ := h x (List.mem_cons_self ..)
    obtain ⟨ys, hys, hl⟩ := ih fun z hz => h z (List.mem_cons_of_mem _ hz)
    exact ⟨y :: ys, Res.each_cons_ok hy hys, by simp [hl]⟩

theorem lsmcUpdate_total' {strat : Lsmc F} (hs : Fits strat) {pay : F → Res F}
    (hpay : ∀ x, ∃ e, pay x = .ok e) (df : F) {n : ℕ} {P E C : List F} (h1 : P.length = n)
    (h2 : E.length = n) (h3 : C.length = n) :
    ∃ out, lsmcUpdate strat pay df P E C = .ok out := by
  have e1 := list_eq_map_range P (lit 0)
  have e2 := list_eq_map_range E (lit 0)
  have e3 := list_eq_map_range C (lit 0)
  rw [h1] at e1; rw [h2] at e2; rw [h3] at e3
  rw [e1, e2, e3]
  exact lsmcUpdate_total hs hpay df n _ _ _

theorem lsmcUpdate_length {strat : Lsmc F} {pay : F → Res F} {df : F} {P E C out : List F}
    (h1 : E.length = P.length) (h3 : C.length = P.length)
    (h : lsmcUpdate strat pay df P E C = .ok out) : out.length = P.length := by
  have hcol : (collect df (P.zip (E.zip C))).2.2.length = P.length := by
    rw [collect_eq]; simp [h1, h3]
  unfold lsmcUpdate at h
  simp only [] at h
  split at h
  · simp only [Res.ok.injEq] at h; rw [← h, h3]
  · simp only [Res.bind_eq_ok] at h
    obtain ⟨bases, -, coeffs, -, h⟩ := h
    rw [(exerciseOrContinue_spec h).1]
    simp [hcol, h3]

theorem standardLoop_total {strat : Lsmc F} (hs : Fits strat) {pay : F → Res F}
    (hpay : ∀ x, ∃ e, pay x = .ok e) (df : F) {paths : List (List F)} {m : ℕ}
    (hl : ∀ p ∈ paths, p.length = m) : ∀ {k : ℕ} (_ : k ≤ m) {cash : List F}
    (_ : cash.length = paths.length),
    ∃ out, standardLoop strat pay df paths k cash = .ok out ∧ out.length = paths.length := by
  intro k
  induction k with
  | zero => intro _ cash hc; exact ⟨cash, rfl, hc⟩
  | succ k ih =>
    intro hk cash hc
    obtain ⟨col, hcol, hcl⟩ := each_total (f := fun row : List F => vget row k) (l := paths) (by
      intro p hp
      have : k < p.length := by rw [hl p hp]; omega
      exact ⟨p[k], by rw [vget_ok]; simp [this]⟩)
    obtain ⟨ex, hex, hel⟩ := each_total (f := pay) (l := col) (fun x _ => hpay x)
    obtain ⟨out, hout⟩ := lsmcUpdate_total' hs hpay df hcl (hel.trans hcl) hc
    have hol := lsmcUpdate_length hel (hc.trans hcl.symm) hout
    obtain ⟨out', h', hl'⟩ := ih (by omega) (hol.trans hcl)
    refine ⟨out', ?_, hl'⟩
    simp only [standardLoop, standardStep, hcol, hex, hout, Res.bind_ok, h']

theorem standardValue_total {strat : Lsmc F} (hs : Fits strat) {pay : F → Res F}
    (hpay : ∀ x, ∃ e, pay x = .ok e) (df : F) {paths : List (List F)} {m : ℕ} (hm : 0 < m)
    (hI : m ≤ INT_MAX) (hne : paths ≠ []) (hl : ∀ p ∈ paths, p.length = m) :
    ∃ v, standardValue strat pay m df paths = .ok v := by
  obtain ⟨col, hcol, hcl⟩ := each_total (f := fun row : List F => vget row (m - 1)) (l := paths) (by
    intro p hp
    have : m - 1 < p.length := by rw [hl p hp]; omega
    exact ⟨p[m - 1], by rw [vget_ok]; simp [this]⟩)
  obtain ⟨ex, hex, hel⟩ := each_total (f := pay) (l := col) (fun x _ => hpay x)
  have e2 : ((m : Int) - 1).toNat = m - 1 := by omega
  obtain ⟨out, hout, hol⟩ := standardLoop_total hs hpay df hl (k := m - 1) (by omega)
    (hel.trans hcl)
  have hmean : mean out = .ok (out.foldl (· + ·) (lit 0) / lit (out.length : ℚ)) := by
    unfold mean
    rw [if_neg]
    intro h
    rw [List.isEmpty_iff] at h
    subst h
    exact hne (List.length_eq_zero_iff.mp hol.symm)
  unfold standardValue
  rw [if_neg (by omega), hcol, Res.bind_ok, hex, Res.bind_ok, toInt32_of_le hI,
    if_neg (by simp only [INT_MAX] at hI; omega), e2, hout, Res.bind_ok, hmean]
  exact ⟨_, rfl⟩

/-! ## The simulated prices are determined -/

theorem Draws_unique {α : Type} {sim : Eff σ α} {s s₁ : σ} {l : List α} (h : Draws sim s l s₁) :
    ∀ {l' : List α} {s₂ : σ}, Draws sim s l' s₂ → l'.length = l.length → l' = l ∧ s₂ = s₁ := by
  induction h with
  | nil => intro l' s₂ h' hl; cases h' with
    | nil => exact ⟨rfl, rfl⟩
    | cons => simp at hl
  | cons h _ ih => intro l' s₂ h' hl; cases h' with
    | nil => simp at hl
    | cons h2 t2 =>
      rw [h] at h2
      simp only [Prod.mk.injEq, Res.ok.injEq] at h2
      obtain ⟨rfl, rfl⟩ := h2
      obtain ⟨rfl, rfl⟩ := ih t2 (by simpa using hl)
      exact ⟨rfl, rfl⟩

theorem Chained_unique {α β : Type} {f : α → Eff σ β} {s s₁ : σ} {xs : List α} {ys : List β}
    (h : Chained f s xs ys s₁) : ∀ {ys' : List β} {s₂ : σ}, Chained f s xs ys' s₂ →
    ys' = ys ∧ s₂ = s₁ := by
  induction h with
  | nil => intro ys' s₂ h'; cases h'; exact ⟨rfl, rfl⟩
  | cons h _ ih => intro ys' s₂ h'; cases h' with
    | cons h2 t2 =>
      rw [h] at h2
      simp only [Prod.mk.injEq, Res.ok.injEq] at h2
      obtain ⟨rfl, rfl⟩ := h2
      obtain ⟨rfl, rfl⟩ := ih t2
      exact ⟨rfl, rfl⟩

theorem map_range_inj {α : Type} {n : ℕ} {f g : ℕ → α}
    (h : (List.range n).map f = (List.range n).map g) : ∀ i, i < n → f i = g i := by
  intro i hi
  have := List.map_inj_left.mp h i (List.mem_range.mpr hi)
  exact this

theorem Simulated_unique {bridge : Bool} {src : PathSource σ F} {T : F} {N : ℕ} {S S' : ℕ → ℕ → F}
    {s s₁ s₂ : σ} (h0 : 0 < src.steps) (h : Simulated bridge src T N S s s₁)
    (h' : Simulated bridge src T N S' s s₂) :
    s₁ = s₂ ∧ ∀ i, i < N → ∀ j, 1 ≤ j → j ≤ src.steps → S i j = S' i j := by
  cases bridge with
  | false =>
    unfold Simulated at h h'
    rw [if_neg (by simp)] at h h'
    obtain ⟨p, h1, h2, h3, rfl⟩ := h
    obtain ⟨p', h1', h2', h3', rfl⟩ := h'
    obtain ⟨rfl, rfl⟩ := Draws_unique h1 h1' (by omega)
    exact ⟨rfl, fun _ _ _ _ _ => rfl⟩
  | true =>
    unfold Simulated at h h'
    rw [if_pos rfl] at h h'
    obtain ⟨st, h1, h2, h3⟩ := h
    obtain ⟨st', h1', h2', h3'⟩ := h'
    have key : ∀ d, d < src.steps → st (src.steps - d) = st' (src.steps - d) ∧
        (List.range N).map (fun i => S i (src.steps - d)) =
          (List.range N).map (fun i => S' i (src.steps - d)) := by
      intro d
      induction d with
      | zero =>
        intro _
        obtain ⟨e1, e2⟩ := Draws_unique h1 h1' (by simp)
        exact ⟨e2.symm, e1.symm⟩
      | succ d ih =>
        intro hd
        obtain ⟨e1, e2⟩ := ih (by omega)
        have hj := h3 (src.steps - (d + 1)) (by omega) (by omega)
        have hj' := h3' (src.steps - (d + 1)) (by omega) (by omega)
        rw [show src.steps - (d + 1) + 1 = src.steps - d by omega] at hj hj'
        rw [e1, e2] at hj
        obtain ⟨a1, a2⟩ := Chained_unique hj hj'
        exact ⟨a2.symm, a1.symm⟩
    refine ⟨?_, ?_⟩
    · have := (key (src.steps - 1) (by omega)).1
      rw [show src.steps - (src.steps - 1) = 1 by omega, h2, h2'] at this
      exact this
    · intro i hi j hj1 hj2
      have := (key (src.steps - j) (by omega)).2
      rw [show src.steps - (src.steps - j) = j by omega] at this
      exact map_range_inj this i hi

theorem DateRule_congr {strat : Lsmc F} {pay : F → Res F} {N : ℕ} {P P' L : ℕ → F} {X : ℕ → Prop}
    (h : ∀ i, i < N → P i = P' i) (hr : DateRule strat pay N P L X) :
    DateRule strat pay N P' L X := by
  obtain ⟨I, h1, h2, h3, h4⟩ := hr
  have hI : ∀ i ∈ I, i < N := fun i hi => ((h2 i).mp hi).1
  refine ⟨I, h1, ?_, h3, ?_⟩
  · intro i
    rw [h2]
    constructor
    · rintro ⟨a, b⟩; exact ⟨a, by rw [← h i a]; exact b⟩
    · rintro ⟨a, b⟩; exact ⟨a, by rw [h i a]; exact b⟩
  · intro hne
    obtain ⟨bases, coeffs, g1, g2, g3⟩ := h4 hne
    refine ⟨bases, coeffs, ?_, g2, ?_⟩
    · rw [← g1]; congr 1
      exact List.map_congr_left fun i hi => (h i (hI i hi)).symm
    · intro k i hk
      obtain ⟨e, row, fit, a1, a2⟩ := g3 k i hk
      exact ⟨e, row, fit, by rw [← h i (hI i (List.mem_of_getElem? hk))]; exact a1, a2⟩

theorem run_congr_range {strat : Lsmc F} {pay : F → Res F} {N m : ℕ} {df : F} {S S' : ℕ → ℕ → F}
    {value : ℕ → ℕ → F} {D : ℕ → ℕ → Prop} {j₀ : ℕ}
    (hS : ∀ i, i < N → ∀ l, j₀ ≤ l → l ≤ m → S i l = S' i l)
    (hrun : LsmcRun strat pay N m df (activeDates pay N S) S j₀ D value) :
    LsmcRun strat pay N m df (activeDates pay N S') S' j₀ D value := by
  constructor
  · intro j h1 h2
    exact DateRule_congr (fun i hi => hS i hi j h1 h2.le) (hrun.dates j h1 h2)
  · intro j h1 h2 i hi
    obtain ⟨k, e, hs, hp, hv⟩ := hrun.values j h1 h2 i hi
    refine ⟨k, e, hs, ?_, ?_⟩
    · rw [← hS i hi k (h1.trans hs.1) hs.2.1]; exact hp
    · rw [hv, activeDates_congr pay N (fun l hl hlk i hi => hS i hi l (h1.trans hl)
        (by have := hs.2.1; omega))]

theorem bridgeEach_total {back : F → Eff σ F} {pay : F → Res F} (hpay : ∀ x, ∃ e, pay x = .ok e)
    {s s' : σ} {xs ys : List F} (h : Chained back s xs ys s') :
    ∃ rows, Eff.each (fun S => do
      let S' ← back S
      let e ← Eff.lift (pay S')
      return (S', e)) xs s = (.ok rows, s') ∧ rows.map (·.1) = ys := by
  induction h with
  | nil => exact ⟨[], rfl, rfl⟩
  | @cons s s₁ s₂ x y xs ys h _ ih =>
    obtain ⟨rows, hr, hm⟩ := ih
    obtain ⟨e, he⟩ := hpay y
    refine ⟨(y, e) :: rows, ?_, by simp [hm]⟩
    unfold Eff.each
    rw [bind_ok_iff]
    refine ⟨(y, e), s₁, ?_, ?_⟩
    · rw [bind_ok_iff]
      refine ⟨y, s₁, h, ?_⟩
      rw [bind_ok_iff]
      exact ⟨e, s₁, by rw [Eff.lift_apply, he], rfl⟩
    · rw [bind_ok_iff]
      exact ⟨rows, s₂, hr, rfl⟩

theorem bridgeLoop_total {strat : Lsmc F} (hs : Fits strat) {src : PathSource σ F}
    {pay : F → Res F} (hpay : ∀ x, ∃ e, pay x = .ok e) {dt df : F} {N : ℕ} {S : ℕ → ℕ → F}
    {st : ℕ → σ} : ∀ {k : ℕ}
    (_ : ∀ j, 1 ≤ j → j ≤ k → Chained
        (fun x => src.simulatePriceBackward x (lit (j : ℚ) * dt) (lit ((j + 1 : ℕ) : ℚ) * dt))
        (st (j + 1)) ((List.range N).map (fun i => S i (j + 1)))
        ((List.range N).map (fun i => S i j)) (st j)) {cash : List F} (_ : cash.length = N),
    ∃ out, bridgeLoop strat src pay dt df k ((List.range N).map (fun i => S i (k + 1)), cash)
      (st (k + 1)) = (.ok out, st 1) ∧ out.2.length = N := by
  intro k
  induction k with
  | zero => intro _ cash hc; exact ⟨_, rfl, hc⟩
  | succ k ih =>
    intro hch cash hc
    obtain ⟨rows, hrows, hm⟩ := bridgeEach_total hpay (hch (k + 1) (by omega) le_rfl)
    have hlen : rows.length = N := by
      have := congrArg List.length hm
      simpa using this
    obtain ⟨out, hout⟩ := lsmcUpdate_total' hs hpay df (P := rows.map (·.1)) (E := rows.map (·.2))
      (C := cash) (n := N) (by simp [hlen]) (by simp [hlen]) hc
    have hol := lsmcUpdate_length (by simp) (by simp [hlen, hc]) hout
    obtain ⟨out', h', hl'⟩ := ih (fun j h1 h2 => hch j h1 (by omega)) (cash := out)
      (by rw [hol]; simp [hlen])
    refine ⟨out', ?_, hl'⟩
    unfold bridgeLoop bridgeStep
    rw [bind_ok_iff]
    refine ⟨(rows.map (·.1), out), st (k + 1), ?_, ?_⟩
    · rw [bind_ok_iff]
      refine ⟨rows, st (k + 1), hrows, ?_⟩
      rw [bind_ok_iff]
      exact ⟨out, st (k + 1), by rw [Eff.lift_apply, hout], rfl⟩
    · rw [hm]; exact h'

/-- With total payoffs and strategies the pricer returns. -/
theorem american_total {bridge : Bool} {strat : Lsmc F} (hs : Fits strat) {src : PathSource σ F}
    {getR : Eff σ F} {pay : F → Res F} (hpay : ∀ x, ∃ e, pay x = .ok e) {T r : F} {N : ℕ} {s s' : σ}
    (hN : 0 < N) (hNI : N ≤ INT_MAX) (h0 : 0 < src.steps) (hI : src.steps ≤ INT_MAX)
    (hR : getR s = (.ok r, s)) {S : ℕ → ℕ → F} (h : Simulated bridge src T N S s s') :
    ∃ v, american bridge strat src getR pay T N s = (.ok v, s') := by
  cases bridge with
  | false =>
    unfold Simulated at h
    rw [if_neg (by simp)] at h
    obtain ⟨paths, h1, h2, h3, rfl⟩ := h
    have hne : paths ≠ [] := by rintro rfl; simp at h2; omega
    obtain ⟨v, hv⟩ := standardValue_total hs hpay (Fl.exp (-r * (T / lit (src.steps : ℚ)))) h0 hI
      hne h3
    refine ⟨v, ?_⟩
    unfold american americanStandard
    simp only [Bool.false_eq_true, if_false]
    rw [Eff.bind_of_ok hR, Eff.bind_of_ok ((simulateN_iff hNI).mpr ⟨draws_simulateRow h1 h3, h2⟩),
      Eff.lift_apply, hv]
  | true =>
    unfold Simulated at h
    rw [if_pos rfl] at h
    obtain ⟨st, h1, h2, h3⟩ := h
    obtain ⟨cash, hc, hcl⟩ := each_total (f := pay)
      (l := (List.range N).map (fun i => S i src.steps)) (fun x _ => hpay x)
    have e1 : src.steps - 1 + 1 = src.steps := by omega
    have e2 : ((src.steps : Int) - 1).toNat = src.steps - 1 := by omega
    obtain ⟨out, hout, hol⟩ := bridgeLoop_total hs hpay (df := Fl.exp (-r * (T / lit (src.steps : ℚ))))
      (k := src.steps - 1) (fun j a b => h3 j a (by omega)) (cash := cash) (by simpa using hcl)
    rw [e1] at hout
    have hmean : mean out.2 = .ok (out.2.foldl (· + ·) (lit 0) / lit (out.2.length : ℚ)) := by
      unfold mean
      rw [if_neg]
      intro h
      rw [List.isEmpty_iff] at h
      rw [h] at hol
      simp at hol
      omega
    refine ⟨out.2.foldl (· + ·) (lit 0) / lit (out.2.length : ℚ) *
      Fl.exp (-r * (T / lit (src.steps : ℚ))), ?_⟩
    unfold american americanBridge
    simp only [if_true]
    rw [Eff.bind_of_ok hR, Eff.bind_of_ok ((simulateN_iff hNI).mpr ⟨h1, by simp⟩),
      Eff.bind_of_ok (by rw [Eff.lift_apply, hc]), toInt32_of_le hI,
      if_neg (by simp only [INT_MAX] at hI; omega), e2, Eff.bind_of_ok hout,
      Eff.bind_of_ok (by rw [Eff.lift_apply, hmean]), h2]
    rfl

end MC
end Verif
