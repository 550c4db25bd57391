import Verif.Lemmas.FdmFailure

/-!
# What a time step reads of the vectors it writes

Two runs of a time step from states that differ only in `newPrices` and `b` end in the same prices.
-/

namespace Verif
namespace Fdm
variable {F : Type}

/-- The states differ at most in `newPrices` outside `P` and in `b` outside `Q`. -/
def Agree (J : ℕ) (P Q : ℕ → Prop) (s t : Fdm F) : Prop := s.J = J ∧ ∃ v c, t = { s with newPrices := v, b := c } ∧ v.length = s.newPrices.length ∧
  c.length = s.b.length ∧ (∀ i, P i → v[i]? = s.newPrices[i]?) ∧ ∀ i, Q i → c[i]? = s.b[i]?

/-- A successful run from one state is matched by a successful run from the other one. -/
def Sim {α : Type} (J : ℕ) (P Q : ℕ → Prop) (e : Eff (Fdm F) α) (P' Q' : ℕ → Prop) : Prop :=
  ∀ s t, Agree J P Q s t → ∀ a s', e s = (.ok a, s') → ∃ t', e t = (.ok a, t') ∧ Agree J P' Q' s' t'

variable {J : ℕ} {P P' P'' Q Q' Q'' : ℕ → Prop} {s t : Fdm F}

theorem Agree.mono (h : Agree J P Q s t) (hP : ∀ i, P' i → P i) (hQ : ∀ i, Q' i → Q i) : Agree J P' Q' s t := by
  obtain ⟨h0, v, c, h1, h2, h3, h4, h5⟩ := h
  exact ⟨h0, v, c, h1, h2, h3, fun i hi => h4 i (hP i hi), fun i hi => h5 i (hQ i hi)⟩

theorem Sim.bind {α β : Type} {e : Eff (Fdm F) α} {f : α → Eff (Fdm F) β} (he : Sim J P Q e P' Q') (hf : ∀ a, Sim J P' Q' (f a) P'' Q'') :
    Sim J P Q (e >>= f) P'' Q'' := by
  intro s t h b s' hs
  obtain ⟨a, s1, h1, h2⟩ := Eff.bind_ok_inv hs
  obtain ⟨t1, g1, g2⟩ := he s t h a s1 h1
  obtain ⟨t', g3, g4⟩ := hf a s1 t1 g2 b s' h2
  exact ⟨t', by rw [Eff.bind_of_ok g1, g3], g4⟩

theorem vset_get {α : Type} {v v' : List α} {i : ℕ} {x : α} (h : vset v i x = .ok v') (k : ℕ) : v'[k]? = if i = k then some x else v[k]? := by
  unfold vset at h
  split at h
  · rename_i hi
    cases h
    rw [List.getElem?_set]
    simp [hi]
  · cases h

theorem vset_total {α : Type} {v v' w : List α} {i : ℕ} {x : α} (h : vset v i x = .ok v') (hw : w.length = v.length) : ∃ w', vset w i x = .ok w' := by
  unfold vset at h ⊢
  split at h
  · rename_i hi
    exact ⟨_, if_pos (by omega)⟩
  · cases h

theorem Sim.store {i : ℕ} {val : Fdm F → Res F} (hval : ∀ s t, Agree J P Q s t → val s = val t) : Sim J P Q (storePrice i val) (fun k => P k ∨ k = i) Q := by
  intro s t h a s' hs
  have hv := hval s t h
  obtain ⟨h0, v, c, rfl, h2, h3, h4, h5⟩ := h
  unfold storePrice at hs
  split at hs
  · rename_i w hw
    cases hs
    obtain ⟨x, hx, hw⟩ := Res.bind_eq_ok.mp hw
    obtain ⟨w', hw'⟩ := vset_total hw h2
    refine ⟨{ s with newPrices := w', b := c }, ?_, h0, w', c, rfl, ?_, h3, ?_, h5⟩
    · unfold storePrice
      rw [← hv, hx, Res.bind_ok]
      dsimp only
      rw [hw']
    · rw [vset_length hw', vset_length hw, h2]
    · intro k hk
      dsimp only
      rw [vset_get hw', vset_get hw]
      split
      · rfl
      · rename_i hne
        exact h4 k (hk.resolve_right fun h => hne h.symm)
  · cases hs
  · cases hs

theorem Sim.forJ {body : ℕ → Eff (Fdm F) Unit} (hb : ∀ (P : ℕ → Prop) j, Sim J P Q (body j) (fun k => P k ∨ k = j) Q) : ∀ (n lo : ℕ) (P : ℕ → Prop),
    Sim J P Q (forJ body n lo) (fun k => P k ∨ (lo ≤ k ∧ k < lo + n)) Q
  | 0, lo, P => by
    intro s t h a s' hs
    cases hs
    exact ⟨t, rfl, h.mono (fun i hi => hi.resolve_right (by omega)) fun _ h => h⟩
  | n + 1, lo, P => by
    refine Sim.bind (hb P lo) fun _ => ?_
    intro s t h a s' hs
    obtain ⟨t', h1, h2⟩ := Sim.forJ hb n (lo + 1) _ s t h a s' hs
    refine ⟨t', h1, h2.mono (fun i hi => ?_) fun _ h => h⟩
    rcases hi with hi | hi
    · exact .inl (.inl hi)
    · rcases Nat.eq_or_lt_of_le hi.1 with h | h
      · exact .inl (.inr h.symm)
      · exact .inr ⟨h, by omega⟩

theorem Sim.read {α : Type} {f : Fdm F → Res α} (hf : ∀ s t, Agree J P Q s t → f s = f t) : Sim J P Q (Eff.read f) P Q := by
  intro s t h a s' hs
  rw [Eff.read_apply] at hs
  obtain ⟨h1, rfl⟩ := Prod.mk.inj hs
  exact ⟨t, by rw [Eff.read_apply, ← hf s t h, h1], h⟩

theorem Sim.mono {α : Type} {e : Eff (Fdm F) α} (h : Sim J P Q e P' Q') (hP : ∀ i, P'' i → P' i) : Sim J P Q e P'' Q' := by
  intro s t hst a s' hs
  obtain ⟨t', h1, h2⟩ := h s t hst a s' hs
  exact ⟨t', h1, h2.mono hP fun _ h => h⟩

theorem Agree.J_eq (h : Agree J P Q s t) : s.J = J ∧ t.J = J := by
  obtain ⟨h0, v, c, rfl, -⟩ := h
  exact ⟨h0, h0⟩

theorem Agree.vget (h : Agree J P Q s t) {i : ℕ} (hi : P i) : Verif.vget t.newPrices i = Verif.vget s.newPrices i := by
  obtain ⟨h0, v, c, rfl, -, -, h4, -⟩ := h
  unfold Verif.vget
  dsimp only
  rw [h4 i hi]

/-- If nothing is left out, the states are equal. -/
theorem Agree.eq (h : Agree J P Q s t) (hP : ∀ i < s.newPrices.length, P i) (hQ : ∀ i < s.b.length, Q i) : t = s := by
  obtain ⟨h0, v, c, rfl, h2, h3, h4, h5⟩ := h
  have e1 : v = s.newPrices := by
    refine List.ext_getElem? fun i => ?_
    by_cases hi : i < s.newPrices.length
    · exact h4 i (hP i hi)
    · rw [List.getElem?_eq_none (by omega), List.getElem?_eq_none (by omega)]
  have e2 : c = s.b := by
    refine List.ext_getElem? fun i => ?_
    by_cases hi : i < s.b.length
    · exact h5 i (hQ i hi)
    · rw [List.getElem?_eq_none (by omega), List.getElem?_eq_none (by omega)]
  rw [e1, e2]

variable [Fl F] [Add F] [Sub F] [Mul F] [Div F] [Neg F]

omit [Fl F] [Add F] [Sub F] [Mul F] [Div F] [Neg F] in
theorem Sim.boundary {p : Pde F} {time : Fdm F → F} (ht : ∀ s t, Agree J P Q s t → time s = time t) (ht' : ∀ s t, Agree J (fun k => P k ∨ k = 0) Q s t → time s = time t) :
    ∀ s t, Agree J P Q s t → s.newPrices.length = J → ∀ s', boundary p time s = (.ok (), s') → ∃ t', boundary p time t = (.ok (), t') ∧
      Agree J (fun k => (P k ∨ k = 0) ∨ k = J - 1) Q s' t' := by
  intro s t h hl s' hs
  unfold Fdm.boundary at hs ⊢
  obtain ⟨_, s1, h1, h2⟩ := Eff.bind_ok_inv hs
  obtain ⟨t1, g1, g2⟩ := Sim.store (i := 0) (val := fun s => do let x ← vfront s.xValues; p.boundaryLeft (time s) x) (fun s t h => by
    have e := ht s t h
    obtain ⟨h0, v, c, rfl, -⟩ := h
    rw [← e]) s t h _ s1 h1
  rw [Eff.bind_of_ok g1]
  have l1 : s1.newPrices.length = J := by
    obtain ⟨v, c, rfl, hv⟩ := (Frame.store _ _).like h1
    exact hv.trans hl
  have l2 : t1.newPrices.length = J := by
    obtain ⟨-, v, c, rfl, hv, -⟩ := g2
    exact hv.trans l1
  rw [Eff.withState_apply, l1] at h2
  rw [Eff.withState_apply, l2]
  exact Sim.store (i := J - 1) (val := fun s => do let x ← vback s.xValues; p.boundaryRight (time s) x) (fun s t h => by
    have e := ht' s t h
    obtain ⟨h0, v, c, rfl, -⟩ := h
    rw [← e]) s1 t1 g2 _ s' h2

theorem Sim.explicit {p : Pde F} : Sim J P Q (innerExplicit p) (fun k => P k ∨ (1 ≤ k ∧ k < 1 + (ulpred J - 1))) Q := by
  intro s t h a s' hs
  obtain ⟨e1, e2⟩ := h.J_eq
  unfold innerExplicit at hs ⊢
  rw [Eff.withState_apply, e1] at hs
  rw [Eff.withState_apply, e2]
  refine Sim.forJ (fun P j => Sim.store ?_) _ _ P s t h a s' hs
  rintro s t ⟨h0, v, c, rfl, -⟩
  rfl

omit [Fl F] [Add F] [Sub F] [Mul F] [Div F] [Neg F] in
theorem Sim.copy (sol : List F) : Sim J P Q (copySolution sol) (fun k => P k ∨ (1 ≤ k ∧ k < 1 + (ulpred J - 1))) Q := by
  intro s t h a s' hs
  obtain ⟨e1, e2⟩ := h.J_eq
  unfold copySolution at hs ⊢
  rw [Eff.withState_apply, e1] at hs
  rw [Eff.withState_apply, e2]
  exact Sim.forJ (fun P j => Sim.store fun _ _ _ => rfl) _ _ P s t h a s' hs

theorem each_congr {α β : Type} {f g : α → Res β} {l : List α} (h : ∀ a, f a = g a) : Res.each f l = Res.each g l := by
  rw [show f = g from funext h]

theorem Sim.implicit {solver : MatrixSolver F} {p : Pde F} (h0 : P 0) (hJ : P (J - 1)) :
    Sim J P Q (innerImplicit solver p) (fun k => P k ∨ (1 ≤ k ∧ k < 1 + (ulpred J - 1))) Q := by
  refine Sim.bind (Sim.read fun s t h => ?_) fun sol => Sim.copy sol
  have g0 := h.vget h0
  have gJ := h.vget hJ
  obtain ⟨e, v, c, rfl, -⟩ := h
  have : ∀ j, implicitRow p { s with newPrices := v, b := c } j = implicitRow p s j := by
    intro j
    unfold implicitRow
    dsimp only at g0 gJ ⊢
    rw [e, g0, gJ]
    rfl
  unfold implicitSystem
  rw [each_congr this]

/-- The schemes whose linear systems are built before they are solved. -/
def SingleSolve : Scheme F → Prop
  | .crankNicolson _ => False
  | _ => True

theorem march_sim {sc : Scheme F} (hsc : SingleSolve sc) {p : Pde F} (hJ : 2 ≤ J) {s t s' : Fdm F} (h : Agree J P Q s t) (hl : s.newPrices.length = J)
    (hs : march sc p s = (.ok (), s')) : ∃ t', march sc p t = (.ok (), t') ∧ Agree J (fun k => k < J) Q s' t' := by
  cases sc with
  | crankNicolson solver => cases hsc
  | explicit =>
    unfold march at hs ⊢
    dsimp only at hs ⊢
    obtain ⟨_, s1, h1, h2⟩ := Eff.bind_ok_inv hs
    obtain ⟨t1, g1, g2⟩ := Sim.boundary (fun s t ⟨_, v, c, h, _⟩ => by rw [h]) (fun s t ⟨_, v, c, h, _⟩ => by rw [h]) s t h hl s1 h1
    obtain ⟨t2, g3, g4⟩ := Sim.explicit s1 t1 g2 _ s' h2
    refine ⟨t2, by rw [Eff.bind_of_ok g1, g3], g4.mono (fun k hk => ?_) fun _ h => h⟩
    rw [ulpred_pos (by omega)]
    omega
  | implicit solver =>
    unfold march at hs ⊢
    dsimp only at hs ⊢
    obtain ⟨_, s1, h1, h2⟩ := Eff.bind_ok_inv hs
    obtain ⟨t1, g1, g2⟩ := Sim.boundary (fun s t ⟨_, v, c, h, _⟩ => by rw [h]) (fun s t ⟨_, v, c, h, _⟩ => by rw [h]) s t h hl s1 h1
    obtain ⟨t2, g3, g4⟩ := Sim.implicit (.inl (.inr rfl)) (.inr rfl) s1 t1 g2 _ s' h2
    refine ⟨t2, by rw [Eff.bind_of_ok g1, g3], g4.mono (fun k hk => ?_) fun _ h => h⟩
    rw [ulpred_pos (by omega)]
    omega

/-! ## Crank-Nicolson -/

omit [Fl F] [Add F] [Sub F] [Mul F] [Div F] [Neg F] in
theorem forJ_outside {val : ℕ → Fdm F → Res F} : ∀ {n lo : ℕ} {s s' : Fdm F}, forJ (fun j => storePrice j (val j)) n lo s = (.ok (), s') →
    ∃ v, s' = { s with newPrices := v } ∧ v.length = s.newPrices.length ∧ ∀ k, k < lo ∨ lo + n ≤ k → v[k]? = s.newPrices[k]?
  | 0, lo, s, s', h => by cases h; exact ⟨s.newPrices, rfl, rfl, fun _ _ => rfl⟩
  | n + 1, lo, s, s', h => by
    rw [forJ] at h
    obtain ⟨_, s1, h1, h2⟩ := Eff.bind_ok_inv h
    obtain ⟨v, rfl, hv, hk⟩ := forJ_outside h2
    unfold storePrice at h1
    split at h1
    · rename_i w hw
      cases h1
      obtain ⟨x, -, hw⟩ := Res.bind_eq_ok.mp hw
      refine ⟨v, rfl, hv.trans (vset_length hw), fun k hk' => ?_⟩
      rw [hk k (by omega)]
      dsimp only
      rw [vset_get hw, if_neg (by omega)]
    · cases h1
    · cases h1

theorem cnIteration_det {solver : MatrixSolver F} {p : Pde F} {j : ℕ} {ts a a' : List (ℕ × ℕ × F)} (hJ : 2 ≤ J) {s t s' t' : Fdm F}
    (h : Agree J (fun k => k = 0 ∨ k = J - 1) Q s t) (hs : cnIteration solver p j ts s = (.ok a, s')) (ht : cnIteration solver p j ts t = (.ok a', t')) :
    a = a' ∧ Agree J (fun k => (k = 0 ∨ k = J - 1) ∨ (k < J ∧ ∀ i < s.b.length, Q i ∨ i = j - 1)) (fun k => Q k ∨ k = j - 1) s' t' ∧ s'.b.length = s.b.length := by
  have g0 := h.vget (.inl rfl)
  have gJ := h.vget (.inr rfl)
  unfold cnIteration at hs ht
  obtain ⟨row, s1, h1, hs⟩ := Eff.bind_ok_inv hs
  obtain ⟨row', t1, h1', ht⟩ := Eff.bind_ok_inv ht
  obtain ⟨_, s2, h2, hs⟩ := Eff.bind_ok_inv hs
  obtain ⟨_, t2, h2', ht⟩ := Eff.bind_ok_inv ht
  obtain ⟨sol, s3, h3, hs⟩ := Eff.bind_ok_inv hs
  obtain ⟨sol', t3, h3', ht⟩ := Eff.bind_ok_inv ht
  obtain ⟨_, s4, h4, hs⟩ := Eff.bind_ok_inv hs
  obtain ⟨_, t4, h4', ht⟩ := Eff.bind_ok_inv ht
  cases hs
  cases ht
  rw [Eff.read_apply] at h1 h1' h3 h3'
  obtain ⟨r1, rfl⟩ := Prod.mk.inj h1
  obtain ⟨r1', rfl⟩ := Prod.mk.inj h1'
  obtain ⟨r3, rfl⟩ := Prod.mk.inj h3
  obtain ⟨r3', rfl⟩ := Prod.mk.inj h3'
  clear h1 h1' h3 h3'
  obtain ⟨rfl, v, c, rfl, hv, hc, hP, hQ⟩ := h
  have hrow : cnRow p { s with newPrices := v, b := c } j = cnRow p s j := by
    unfold cnRow
    dsimp only at g0 gJ ⊢
    rw [g0, gJ]
    rfl
  rw [hrow, r1] at r1'
  cases r1'
  unfold storeB at h2 h2'
  rcases hb : vset s.b (j - 1) row.2 with b | _ | _ <;> rw [hb] at h2
  case throw => cases h2
  case ub => cases h2
  rcases hb' : vset c (j - 1) row.2 with b' | _ | _ <;> rw [hb'] at h2'
  case throw => cases h2'
  case ub => cases h2'
  cases h2
  cases h2'
  have hbl : b'.length = b.length := by rw [vset_length hb', vset_length hb]; exact hc
  have hbq : ∀ i, Q i ∨ i = j - 1 → b'[i]? = b[i]? := by
    intro i hi
    rw [vset_get hb', vset_get hb]
    split
    · rfl
    · rename_i hne
      exact hQ i (hi.resolve_right fun h => hne h.symm)
  unfold copySolution at h4 h4'
  rw [Eff.withState_apply] at h4 h4'
  dsimp only at h4 h4'
  rw [ulpred_pos (by omega)] at h4 h4'
  by_cases hall : ∀ i < s.b.length, Q i ∨ i = j - 1
  · have hbb : b' = b := by
      refine List.ext_getElem? fun i => ?_
      by_cases hi : i < s.b.length
      · exact hbq i (hall i hi)
      · have := vset_length hb
        rw [List.getElem?_eq_none (by omega), List.getElem?_eq_none (by omega)]
    subst hbb
    have : cnSystem solver (ts ++ row.1) { s with newPrices := v, b := b' } = cnSystem solver (ts ++ row.1) { s with b := b' } := rfl
    rw [this, r3] at r3'
    cases r3'
    have hA : Agree s.J (fun k => k = 0 ∨ k = s.J - 1) (fun k => Q k ∨ k = j - 1) { s with b := b' } { s with newPrices := v, b := b' } :=
      ⟨rfl, v, b', rfl, hv, rfl, hP, fun _ _ => rfl⟩
    obtain ⟨t', g1, g2⟩ := Sim.forJ (fun P j => Sim.store (val := fun _ => Verif.vget sol (j - 1)) fun _ _ _ => rfl) _ _ _ _ _ hA _ _ h4
    rw [g1] at h4'
    cases h4'
    refine ⟨rfl, g2.mono (fun k hk => ?_) fun _ h => h, ?_⟩
    · rcases hk with hk | hk
      · exact .inl hk
      · omega
    · obtain ⟨w, rfl, -⟩ := forJ_outside h4
      exact vset_length hb
  · obtain ⟨w, rfl, hw, hk⟩ := forJ_outside h4
    obtain ⟨w', rfl, hw', hk'⟩ := forJ_outside h4'
    refine ⟨rfl, ⟨rfl, w', b', rfl, ?_, hbl, fun i hi => ?_, hbq⟩, vset_length hb⟩
    · dsimp only at hw hw' ⊢
      omega
    · rcases hi with hi | hi
      · dsimp only at hk hk' ⊢
        rw [hk i (by omega), hk' i (by omega)]
        exact hP i hi
      · exact absurd hi.2 hall

theorem cnLoop_det {solver : MatrixSolver F} {p : Pde F} (hJ : 2 ≤ J) : ∀ {n j : ℕ} {ts : List (ℕ × ℕ × F)} {s t s' t' : Fdm F},
    Agree J (fun k => k = 0 ∨ k = J - 1) (fun k => k < j - 1) s t → 1 ≤ j → s.b.length = J - 2 → j - 1 + n = J - 2 →
    (n = 0 → Agree J (fun k => k < J) (fun k => k < J - 2) s t) → cnLoop solver p n j ts s = (.ok (), s') → cnLoop solver p n j ts t = (.ok (), t') →
    Agree J (fun k => k < J) (fun k => k < J - 2) s' t'
  | 0, j, ts, s, t, s', t', _, _, _, _, h0, hs, ht => by
    cases hs
    cases ht
    exact h0 rfl
  | n + 1, j, ts, s, t, s', t', h, hj, hb, hn, _, hs, ht => by
    rw [cnLoop] at hs ht
    obtain ⟨a, s1, h1, hs⟩ := Eff.bind_ok_inv hs
    obtain ⟨a', t1, h1', ht⟩ := Eff.bind_ok_inv ht
    obtain ⟨rfl, hA, hb1⟩ := cnIteration_det hJ h h1 h1'
    refine cnLoop_det hJ (hA.mono (fun k hk => .inl hk) fun k hk => ?_) (by omega) (hb1.trans hb) (by omega) (fun h0 => ?_) hs ht
    · omega
    · subst h0
      exact hA.mono (fun k hk => .inr ⟨hk, fun i hi => by omega⟩) fun k hk => by omega

theorem march_det {solver : MatrixSolver F} {p : Pde F} (hJ : 2 ≤ J) {s t s' t' : Fdm F} (h : Agree J P Q s t) (hl : s.newPrices.length = J) (hb : s.b.length = J - 2)
    (hs : march (.crankNicolson solver) p s = (.ok (), s')) (ht : march (.crankNicolson solver) p t = (.ok (), t')) : t' = s' := by
  have hfr := (Frame.march _ _).like hs
  have hbl : s'.b.length = J - 2 := by
    obtain ⟨v, c, h1, h2, h3⟩ := Frame.march (.crankNicolson solver) p s
    rw [hs] at h1
    dsimp only at h1
    rw [h1]
    exact h3.trans hb
  unfold march at hs ht
  dsimp only at hs ht
  obtain ⟨_, s1, h1, h2⟩ := Eff.bind_ok_inv hs
  obtain ⟨_, t1, h1', h2'⟩ := Eff.bind_ok_inv ht
  obtain ⟨t1', g1, g2⟩ := Sim.boundary (fun s t ⟨_, v, c, h, _⟩ => by rw [h]) (fun s t ⟨_, v, c, h, _⟩ => by rw [h]) s t h hl s1 h1
  rw [h1'] at g1
  cases g1
  obtain ⟨e1, e2⟩ := g2.J_eq
  unfold innerCN at h2 h2'
  rw [Eff.withState_apply, e1, ulpred_pos (by omega)] at h2
  rw [Eff.withState_apply, e2, ulpred_pos (by omega)] at h2'
  have hb1 : s1.b.length = J - 2 := by
    obtain ⟨v, c, h1', h2', h3'⟩ := Frame.boundary p (·.tCurr) s
    rw [h1] at h1'
    dsimp only at h1'
    rw [h1']
    exact h3'.trans hb
  have := cnLoop_det hJ (g2.mono (fun k hk => by omega) fun k hk => by omega) le_rfl hb1 (by omega) (fun h0 => g2.mono (fun k hk => by omega) fun k hk => by omega) h2 h2'
  refine this.eq (fun i hi => ?_) fun i hi => ?_
  · obtain ⟨v, c, rfl, hv⟩ := hfr
    dsimp only at hi
    omega
  · omega

/-! ## The time loop -/

omit [Fl F] [Add F] [Sub F] [Mul F] [Div F] [Neg F] in
theorem Agree.symm (h : Agree J P Q s t) : Agree J P Q t s := by
  obtain ⟨e, v, c, rfl, h2, h3, h4, h5⟩ := h
  exact ⟨e, s.newPrices, s.b, rfl, h2.symm, h3.symm, fun i hi => (h4 i hi).symm, fun i hi => (h5 i hi).symm⟩

theorem step_eq_march {sc : Scheme F} {p : Pde F} {s s' : Fdm F} (h : step sc p s = (.ok (), s')) :
    ∃ s1, march sc p { s with tCurr := s.tPrev + s.dt } = (.ok (), s1) ∧ s' = { s1 with oldPrices := s1.newPrices, tPrev := s1.tCurr } := by
  unfold step at h
  rw [Eff.bind_of_ok (Eff.modify_apply _ _)] at h
  obtain ⟨_, s1, h1, h2⟩ := Eff.bind_ok_inv h
  cases h2
  exact ⟨s1, h1, rfl⟩

/-- The states from which a step starts again: `tCurr` is overwritten too. -/
theorem step_sim {sc : Scheme F} (hsc : SingleSolve sc) {p : Pde F} (hJ : 2 ≤ J) {s t s' : Fdm F} (h : Agree J P Q { s with tCurr := s.tPrev + s.dt } { t with tCurr := t.tPrev + t.dt })
    (hl : s.newPrices.length = J) (hs : step sc p s = (.ok (), s')) : ∃ t', step sc p t = (.ok (), t') ∧ Agree J (fun k => k < J) Q s' t' ∧ s'.newPrices.length = J := by
  obtain ⟨s1, h1, rfl⟩ := step_eq_march hs
  obtain ⟨t1, g1, g2⟩ := march_sim hsc hJ h hl h1
  have hl1 : s1.newPrices.length = J := by
    obtain ⟨v, c, rfl, hv⟩ := (Frame.march _ _).like h1
    exact hv.trans hl
  refine ⟨_, step_of_march g1, ?_, hl1⟩
  obtain ⟨e, v, c, rfl, h2, h3, h4, h5⟩ := g2
  have hv : v = s1.newPrices := by
    refine List.ext_getElem? fun i => ?_
    by_cases hi : i < J
    · exact h4 i hi
    · rw [List.getElem?_eq_none (by omega), List.getElem?_eq_none (by omega)]
  subst hv
  exact ⟨e, s1.newPrices, c, rfl, rfl, h3, fun _ _ => rfl, h5⟩

theorem timeLoop_sim {sc : Scheme F} (hsc : SingleSolve sc) {p : Pde F} (hJ : 2 ≤ J) : ∀ {fuel : ℕ} {s t s' : Fdm F}, Agree J (fun k => k < J) Q s t → s.newPrices.length = J →
    timeLoop sc p fuel s = (.ok (), s') → ∃ t', timeLoop sc p fuel t = (.ok (), t') ∧ t'.newPrices = s'.newPrices
  | 0, s, t, s', _, _, hs => by cases hs
  | fuel + 1, s, t, s', h, hl, hs => by
    have htc : t.tCurr = s.tCurr ∧ t.tDom = s.tDom := by
      obtain ⟨-, v, c, rfl, -⟩ := h
      exact ⟨rfl, rfl⟩
    rw [timeLoop, Eff.withState_apply] at hs ⊢
    rw [htc.1, htc.2]
    by_cases hlt : Fl.lt s.tCurr s.tDom = true
    · rw [if_pos hlt] at hs ⊢
      obtain ⟨_, s1, h1, h2⟩ := Eff.bind_ok_inv hs
      have hA : Agree J (fun k => k < J) Q { s with tCurr := s.tPrev + s.dt } { t with tCurr := t.tPrev + t.dt } := by
        obtain ⟨e, v, c, rfl, g⟩ := h
        exact ⟨e, v, c, rfl, g⟩
      obtain ⟨t1, g1, g2, g3⟩ := step_sim hsc hJ hA hl h1
      rw [Eff.bind_of_ok g1]
      exact timeLoop_sim hsc hJ g2 g3 h2
    · rw [if_neg hlt] at hs ⊢
      cases hs
      refine ⟨t, rfl, ?_⟩
      obtain ⟨e, v, c, rfl, h2, h3, h4, h5⟩ := h
      refine List.ext_getElem? fun i => ?_
      by_cases hi : i < J
      · exact h4 i hi
      · dsimp only
        rw [List.getElem?_eq_none (by omega), List.getElem?_eq_none (by omega)]

/-- The time loop started twice, if both times it enters the first step. -/
theorem timeLoop_restart {sc : Scheme F} (hsc : SingleSolve sc) {p : Pde F} (hJ : 2 ≤ J) {fuel : ℕ} {s t s' : Fdm F}
    (h : Agree J P Q { s with tCurr := s.tPrev + s.dt } { t with tCurr := t.tPrev + t.dt }) (hl : s.newPrices.length = J) (hs0 : Fl.lt s.tCurr s.tDom = true)
    (ht0 : Fl.lt t.tCurr t.tDom = true) (hs : timeLoop sc p fuel s = (.ok (), s')) : ∃ t', timeLoop sc p fuel t = (.ok (), t') ∧ t'.newPrices = s'.newPrices := by
  cases fuel with
  | zero => cases hs
  | succ f =>
    rw [timeLoop, Eff.withState_apply] at hs ⊢
    rw [if_pos hs0] at hs
    rw [if_pos ht0]
    obtain ⟨_, s1, h1, h2⟩ := Eff.bind_ok_inv hs
    obtain ⟨t1, g1, g2, g3⟩ := step_sim hsc hJ h hl h1
    rw [Eff.bind_of_ok g1]
    exact timeLoop_sim hsc hJ g2 g3 h2

theorem timeLoop_restart_cn {solver : MatrixSolver F} {p : Pde F} (hJ : 2 ≤ J) {fuel : ℕ} {s t s' t' : Fdm F}
    (h : Agree J P Q { s with tCurr := s.tPrev + s.dt } { t with tCurr := t.tPrev + t.dt }) (hl : s.newPrices.length = J) (hb : s.b.length = J - 2)
    (hs0 : Fl.lt s.tCurr s.tDom = true) (ht0 : Fl.lt t.tCurr t.tDom = true) (hs : timeLoop (.crankNicolson solver) p fuel s = (.ok (), s'))
    (ht : timeLoop (.crankNicolson solver) p fuel t = (.ok (), t')) : t' = s' := by
  cases fuel with
  | zero => cases hs
  | succ f =>
    rw [timeLoop, Eff.withState_apply] at hs ht
    rw [if_pos hs0] at hs
    rw [if_pos ht0] at ht
    obtain ⟨_, s1, h1, h2⟩ := Eff.bind_ok_inv hs
    obtain ⟨_, t1, h1', h2'⟩ := Eff.bind_ok_inv ht
    obtain ⟨s2, m1, rfl⟩ := step_eq_march h1
    obtain ⟨t2, m2, rfl⟩ := step_eq_march h1'
    have e := march_det hJ h hl hb m1 m2
    subst e
    rw [h2] at h2'
    cases h2'
    rfl

end Fdm
end Verif
