import Verif.Spec.ExportSpec
import Mathlib.Logic.Function.Iterate
import Mathlib.Data.List.Flatten
import Mathlib.Tactic.Linarith
import Mathlib.Tactic.Ring

/-!
# Property C76: the program generate_sobol exports the samples it was asked for
-/

set_option linter.unusedSectionVars false

namespace Verif
open Spec Export

section
variable {E S P F : Type} [Fl F] [Div F] (w : World E S P F)

/-- `c'` is reached from `c`. -/
def Export.Reaches (c c' : Conf E S P F) : Prop := ∃ n, (step w)^[n] c = c'

variable {w}

theorem Export.Reaches.refl (c : Conf E S P F) : Reaches w c c := ⟨0, rfl⟩

theorem Export.Reaches.head {c c' : Conf E S P F} (h : Reaches w (step w c) c') : Reaches w c c' := by
  obtain ⟨n, hn⟩ := h
  exact ⟨n + 1, by rw [Function.iterate_succ_apply]; exact hn⟩

theorem Export.Reaches.trans {c c' c'' : Conf E S P F} (h : Reaches w c c') (h' : Reaches w c' c'') : Reaches w c c'' := by
  obtain ⟨n, rfl⟩ := h
  obtain ⟨m, rfl⟩ := h'
  exact ⟨m + n, Function.iterate_add_apply _ _ _ _⟩

/-- The part of a text that fits on the disk. -/
def Export.clip (w : World E S P F) (l : List (Line F)) : List (Line F) :=
  match w.room with
  | none => l
  | some m => l.take m

theorem Export.write_clip (l : List (Line F)) (x : Line F) : write w (clip w l) x = clip w (l ++ [x]) := by
  unfold write clip
  cases w.room with
  | none => rfl
  | some m =>
    simp only [List.length_take]
    by_cases h : l.length < m
    · rw [if_pos (by omega), List.take_of_length_le (by omega), List.take_of_length_le (by simp; omega)]
    · rw [if_neg (by omega), List.take_append_of_le_length (by omega)]

/-! ## The questions -/

/-- The answers to one round of questions. -/
def Export.answers (l : List (ℕ × ℕ)) : List Token := l.flatMap fun p => [.num p.1, .num p.2]

/-- Answers with which the program asks again. -/
def Export.Rejected (l : List (ℕ × ℕ)) : Prop := ∀ p ∈ l, p.1 < UINT_MOD ∧ p.2 < UINT_MOD ∧ (p.1 = 0 ∨ p.2 = 0)

theorem Export.extract_num {v : ℕ} (hv : v < UINT_MOD) (old : ℕ) (ts : List Token) : extract old ⟨.num v :: ts, false⟩ = (v, ⟨ts, false⟩) := by
  simp only [extract, Bool.false_eq_true, if_false, Int.natAbs_natCast, if_pos hv]
  rw [Int.emod_eq_of_lt (Int.natCast_nonneg _) (by exact_mod_cast hv), Int.toNat_natCast]

theorem Export.reaches_rejected {l : List (ℕ × ℕ)} (h : Rejected l) (ts : List Token) : ∀ N s, (N = 0 ∨ s = 0) → ∃ N' s', (N' = 0 ∨ s' = 0) ∧
    Reaches w (.prompt N s ⟨answers l ++ ts, false⟩) (.prompt N' s' ⟨ts, false⟩) := by
  induction l with
  | nil => exact fun N s hz => ⟨N, s, hz, .refl _⟩
  | cons p l ih =>
    intro N s _
    obtain ⟨h1, h2, h3⟩ := h p (by simp)
    obtain ⟨N', s', hz, hr⟩ := ih (fun q hq => h q (by simp [hq])) p.1 p.2 h3
    refine ⟨N', s', hz, .head ?_⟩
    have e : step w (.prompt N s ⟨answers (p :: l) ++ ts, false⟩) = .prompt p.1 p.2 ⟨answers l ++ ts, false⟩ := by
      have e1 : answers (p :: l) ++ ts = .num p.1 :: .num p.2 :: (answers l ++ ts) := by simp [answers]
      rw [e1]
      simp only [step, prompt, extract_num h1, extract_num h2]
      rw [if_pos (by omega)]
    rw [e]
    exact hr

theorem Export.reaches_setup {l : List (ℕ × ℕ)} (h : Rejected l) {a b : Int} {N s : ℕ} (ha : a.natAbs < UINT_MOD) (hb : b.natAbs < UINT_MOD)
    (hN : (a % (UINT_MOD : Int)).toNat = N) (hs : (b % (UINT_MOD : Int)).toNat = s) (hN0 : 0 < N) (hs0 : 0 < s) (ts : List Token) :
    Reaches w (.prompt 0 0 ⟨answers l ++ .num a :: .num b :: ts, false⟩) (.setup N s) := by
  obtain ⟨N', s', -, hr⟩ := reaches_rejected (w := w) h (.num a :: .num b :: ts) 0 0 (.inl rfl)
  refine hr.trans (.head ?_)
  have e : step w (.prompt N' s' ⟨.num a :: .num b :: ts, false⟩) = .setup N s := by
    simp only [step, prompt, extract, Bool.false_eq_true, if_false, if_pos ha, if_pos hb, hN, hs]
    rw [if_neg (by omega)]
  rw [e]
  exact .refl _

/-! ## The loops -/

theorem Export.step_inner {v : Vars E S P F} {i d : ℕ} {p p' : ℕ → F} (hd : d < v.s) (hs : v.s + 1 < UINT_MOD)
    (h1 : v.sobolPoint = (List.range v.s).map p) (h2 : v.faurePoint = (List.range v.s).map p') : step w (.inner v i (d + 1)) =
    .inner { v with engine := (w.uniform v.engine).2,
                    file := write w v.file (.row i (d + 1) (p d / w.sobol.scale) (p' d / w.faure.scale) (w.uniform v.engine).1) } i (d + 2) := by
  have e1 : upred (d + 1) = d := by simp [upred]
  have e2 : usucc (d + 1) = d + 2 := by rw [usucc, if_neg (by omega)]
  have g : ∀ q : ℕ → F, vget ((List.range v.s).map q) d = .ok (q d) := fun q => by simp [vget, hd]
  simp only [step, inner, e1, e2, h1, h2, g]
  rw [if_pos (by omega)]

theorem Export.reaches_inner (i : ℕ) {p p' u : ℕ → F} {e : ℕ → E} (he : ∀ k, w.uniform (e k) = (u k, e (k + 1))) : ∀ (k : ℕ) (v : Vars E S P F) (d base : ℕ) (L : List (Line F)),
    d + k = v.s → v.s + 1 < UINT_MOD → v.sobolPoint = (List.range v.s).map p → v.faurePoint = (List.range v.s).map p' → v.engine = e base → v.file = clip w L →
    Reaches w (.inner v i (d + 1)) (.outer { v with
      engine := e (base + k),
      file := clip w (L ++ (List.range k).map fun j => .row i (d + j + 1) (p (d + j) / w.sobol.scale) (p' (d + j) / w.faure.scale) (u (base + j))) } (usucc i)) := by
  intro k
  induction k with
  | zero =>
    intro v d base L hk hs h1 h2 h3 h4
    refine .head ?_
    have e : step w (.inner v i (d + 1)) = .outer v (usucc i) := by
      simp only [step, inner]
      rw [if_neg (by omega)]
    rw [e]
    obtain ⟨N, s, en, a, b, q, q', f⟩ := v
    simp only at h3 h4
    subst h3 h4
    simpa using Reaches.refl _
  | succ k ih =>
    intro v d base L hk hs h1 h2 h3 h4
    refine .head ?_
    rw [step_inner (by omega) hs h1 h2, h3, he, h4, write_clip]
    have := ih { v with engine := e (base + 1),
                        file := clip w (L ++ [.row i (d + 1) (p d / w.sobol.scale) (p' d / w.faure.scale) (u base)]) } (d + 1) (base + 1) _ (by simp only; omega) hs h1 h2 rfl rfl
    refine Eq.mp ?_ this
    congr 2
    have e1 : base + 1 + k = base + (k + 1) := by omega
    rw [e1]
    congr 1
    rw [List.append_assoc, List.range_succ_eq_map]
    simp only [List.map_cons, List.map_map, List.singleton_append, Nat.add_zero]
    congr 3
    refine List.map_congr_left fun j _ => ?_
    simp only [Function.comp_apply]
    have a1 : d + 1 + j = d + (j + 1) := by omega
    have a2 : base + 1 + j = base + (j + 1) := by omega
    rw [a1, a2]

/-- One sample. -/
def Export.sample (w : World E S P F) (s : ℕ) (ps pf : ℕ → ℕ → F) (u : ℕ → F) (i : ℕ) : List (Line F) :=
  (List.range s).map fun d => .row (i + 1) (d + 1) (ps i d / w.sobol.scale) (pf i d / w.faure.scale) (u (i * s + d))

theorem Export.reaches_outer {ps pf : ℕ → ℕ → F} {u : ℕ → F} {e : ℕ → E} {tS : ℕ → S} {tF : ℕ → P} {s N : ℕ} (hs : s + 1 < UINT_MOD) (hN : N + 1 < UINT_MOD)
    (he : ∀ k, w.uniform (e k) = (u k, e (k + 1))) (hS : ∀ k, w.sobol.generate (tS k) = (.ok ((List.range s).map (ps k)), tS (k + 1)))
    (hF : ∀ k, w.faure.generate (tF k) = (.ok ((List.range s).map (pf k)), tF (k + 1))) : ∀ (k : ℕ) (v : Vars E S P F) (i : ℕ), i + k = N → v.N = N → v.s = s →
    v.engine = e (i * s) → v.sobol = tS i → v.faure = tF i → v.file = clip w (.header :: (List.range i).flatMap (sample w s ps pf u)) →
    Reaches w (.outer v (i + 1)) (.exited 0 (some (clip w (.header :: (List.range N).flatMap (sample w s ps pf u)))) true) := by
  intro k
  induction k with
  | zero =>
    intro v i hk h1 h2 h3 h4 h5 h6
    obtain rfl : i = N := by omega
    refine .head ?_
    have : step w (.outer v (i + 1)) = .exited 0 (some v.file) true := by
      simp only [step, outer]
      rw [if_neg (by omega)]
    rw [this, h6]
    exact .refl _
  | succ k ih =>
    intro v i hk h1 h2 h3 h4 h5 h6
    refine .head ?_
    have e1 : step w (.outer v (i + 1)) = .inner { v with sobol := tS (i + 1), faure := tF (i + 1), sobolPoint := (List.range s).map (ps i),
                                                          faurePoint := (List.range s).map (pf i) } (i + 1) (0 + 1) := by
      simp only [step, outer, h4, h5, hS, hF]
      rw [if_pos (by omega)]
    rw [e1]
    have hr := reaches_inner (w := w) (i + 1) he s ⟨v.N, v.s, v.engine, tS (i + 1), tF (i + 1), (List.range s).map (ps i), (List.range s).map (pf i), v.file⟩ 0 (i * s)
      (.header :: (List.range i).flatMap (sample w s ps pf u)) (p := ps i) (p' := pf i) (by simp only; omega) (by simp only; omega)
      (by simp only [h2]) (by simp only [h2]) h3 h6
    refine hr.trans ?_
    have e2 : usucc (i + 1) = i + 1 + 1 := by rw [usucc, if_neg (by omega)]
    rw [e2]
    refine ih _ (i + 1) (by omega) h1 h2 ?_ rfl rfl ?_
    · simp only
      congr 1
      ring
    · simp only
      congr 1
      rw [List.range_succ, List.flatMap_append, List.cons_append]
      simp [sample]

/-- What happens with accepted answers. -/
theorem Export.endsIn_clip {l : List (ℕ × ℕ)} (h : Rejected l) {N s : ℕ} (hN0 : 0 < N) (hs0 : 0 < s) (hN : N + 1 < UINT_MOD) (hs : s + 1 < UINT_MOD) (ts : List Token)
    (hdir : w.dir = .present ∨ w.dir = .creatable) (ho : w.opens = true) {a : S} {b : P} (ha : w.sobol.seeded s 42 = .ok a) (hb : w.faure.seeded s 42 = .ok b)
    {ps pf : ℕ → ℕ → F} {u : ℕ → F} (hS : Delivers w.sobol a s ps) (hF : Delivers w.faure b s pf) (hu : Produces w.uniform w.engine u) :
    EndsIn w (answers l ++ .num N :: .num s :: ts) (.exited 0 (some (clip w (exported N s ps pf w.sobol.scale w.faure.scale u))) true) := by
  obtain ⟨tS, hS0, hS⟩ := hS
  obtain ⟨tF, hF0, hF⟩ := hF
  obtain ⟨e, he0, he⟩ := hu
  refine ⟨trivial, ?_⟩
  have m : ∀ n : ℕ, n + 1 < UINT_MOD → (n : Int).natAbs < UINT_MOD ∧ ((n : Int) % (UINT_MOD : Int)).toNat = n := fun n hn =>
    ⟨by rw [Int.natAbs_natCast]; omega, by rw [Int.emod_eq_of_lt (Int.natCast_nonneg _) (by exact_mod_cast (by omega : n < UINT_MOD)), Int.toNat_natCast]⟩
  refine (reaches_setup (w := w) h (m N hN).1 (m s hs).1 (m N hN).2 (m s hs).2 hN0 hs0 ts).trans (.head ?_)
  have e1 : step w (.setup N s) = .outer ⟨N, s, w.engine, a, b, List.replicate s (Fl.lit 0), List.replicate s (Fl.lit 0), write w [] .header⟩ (0 + 1) := by
    rcases hdir with hd | hd <;> simp [step, setup, hd, ho, ha, hb]
  rw [e1]
  have e2 : write w [] .header = clip w [.header] := by
    have := write_clip (w := w) [] .header
    rwa [show clip w [] = [] by unfold clip; cases w.room <;> simp, List.nil_append] at this
  exact reaches_outer hs hN he hS hF N _ 0 (by omega) rfl rfl (by simp [he0]) hS0.symm hF0.symm e2

theorem Export.length_exported (N s : ℕ) (ps pf : ℕ → ℕ → F) (x y : F) (u : ℕ → F) : (exported N s ps pf x y u).length = N * s + 1 := by
  simp [exported, List.length_flatMap]

/-! ## Theorems -/

/-- **C76, partial.** The program asks until both answers are positive.  If `N` and `s` are below the largest `unsigned int`, the
directory and the file can be opened, the sequences support `s` dimensions and the disk has room, it ends with exit code 0 and
the file has the header and the `N * s` rows in order.  Missing: the largest `unsigned int`, input which ends or is not a number,
and a full disk, where the claim is false (see the following theorems). -/
theorem C76_file_partial {l : List (ℕ × ℕ)} (h : Rejected l) {N s : ℕ} (hN0 : 0 < N) (hs0 : 0 < s) (hN : N + 1 < UINT_MOD) (hs : s + 1 < UINT_MOD) (ts : List Token)
    (hdir : w.dir = .present ∨ w.dir = .creatable) (ho : w.opens = true) {a : S} {b : P} (ha : w.sobol.seeded s 42 = .ok a) (hb : w.faure.seeded s 42 = .ok b)
    {ps pf : ℕ → ℕ → F} {u : ℕ → F} (hS : Delivers w.sobol a s ps) (hF : Delivers w.faure b s pf) (hu : Produces w.uniform w.engine u)
    (hroom : ∀ m, w.room = some m → N * s + 1 ≤ m) :
    EndsIn w (answers l ++ .num N :: .num s :: ts) (.exited 0 (some (exported N s ps pf w.sobol.scale w.faure.scale u)) true) := by
  have := endsIn_clip h hN0 hs0 hN hs ts hdir ho ha hb hS hF hu
  have e : clip w (exported N s ps pf w.sobol.scale w.faure.scale u) = exported N s ps pf w.sobol.scale w.faure.scale u := by
    unfold clip
    cases hr : w.room with
    | none => rfl
    | some m => exact List.take_of_length_le (by rw [length_exported]; exact hroom m hr)
  rwa [e] at this

/-- **C76 fails on a full disk.** The program reports success, with exit code 0, although rows are missing. -/
theorem C76_disk_fails {l : List (ℕ × ℕ)} (h : Rejected l) {N s : ℕ} (hN0 : 0 < N) (hs0 : 0 < s) (hN : N + 1 < UINT_MOD) (hs : s + 1 < UINT_MOD) (ts : List Token)
    (hdir : w.dir = .present ∨ w.dir = .creatable) (ho : w.opens = true) {a : S} {b : P} (ha : w.sobol.seeded s 42 = .ok a) (hb : w.faure.seeded s 42 = .ok b)
    {ps pf : ℕ → ℕ → F} {u : ℕ → F} (hS : Delivers w.sobol a s ps) (hF : Delivers w.faure b s pf) (hu : Produces w.uniform w.engine u)
    {m : ℕ} (hm : w.room = some m) (hlt : m < N * s + 1) :
    ∃ file, file.length = m ∧ file ≠ exported N s ps pf w.sobol.scale w.faure.scale u ∧
      EndsIn w (answers l ++ .num N :: .num s :: ts) (.exited 0 (some file) true) := by
  have h1 := endsIn_clip h hN0 hs0 hN hs ts hdir ho ha hb hS hF hu
  have h2 : (clip w (exported N s ps pf w.sobol.scale w.faure.scale u)).length = m := by
    simp only [clip, hm, List.length_take, length_exported]
    omega
  refine ⟨_, h2, fun h3 => ?_, h1⟩
  rw [h3, length_exported] at h2
  omega

/-- **C76.** If the file cannot be opened the program ends with exit code 1 and prints no success message. -/
theorem C76_open {l : List (ℕ × ℕ)} (h : Rejected l) {N s : ℕ} (hN0 : 0 < N) (hs0 : 0 < s) (hN : N < UINT_MOD) (hs : s < UINT_MOD) (ts : List Token)
    (hdir : w.dir = .present ∨ w.dir = .creatable) (ho : w.opens = false) : EndsIn w (answers l ++ .num N :: .num s :: ts) (.exited 1 none false) := by
  refine ⟨trivial, ?_⟩
  have m : ∀ n : ℕ, n < UINT_MOD → (n : Int).natAbs < UINT_MOD ∧ ((n : Int) % (UINT_MOD : Int)).toNat = n := fun n hn =>
    ⟨by rwa [Int.natAbs_natCast], by rw [Int.emod_eq_of_lt (Int.natCast_nonneg _) (by exact_mod_cast hn), Int.toNat_natCast]⟩
  refine (reaches_setup (w := w) h (m N hN).1 (m s hs).1 (m N hN).2 (m s hs).2 hN0 hs0 ts).trans (.head ?_)
  have e1 : step w (.setup N s) = .exited 1 none false := by
    rcases hdir with hd | hd <;> simp [step, setup, hd, ho]
  rw [e1]
  exact .refl _

/-- **C76 fails for unsupported dimensions.** If a sequence does not support the number of dimensions the program is aborted
after it has emptied the file of an earlier run. -/
theorem C76_dimension_fails {l : List (ℕ × ℕ)} (h : Rejected l) {N s : ℕ} (hN0 : 0 < N) (hs0 : 0 < s) (hN : N < UINT_MOD) (hs : s < UINT_MOD) (ts : List Token)
    (hdir : w.dir = .present ∨ w.dir = .creatable) (ho : w.opens = true) {x : Exc} (hx : w.sobol.seeded s 42 = .throw x) :
    EndsIn w (answers l ++ .num N :: .num s :: ts) (.aborted (some [])) := by
  refine ⟨trivial, ?_⟩
  have m : ∀ n : ℕ, n < UINT_MOD → (n : Int).natAbs < UINT_MOD ∧ ((n : Int) % (UINT_MOD : Int)).toNat = n := fun n hn =>
    ⟨by rwa [Int.natAbs_natCast], by rw [Int.emod_eq_of_lt (Int.natCast_nonneg _) (by exact_mod_cast hn), Int.toNat_natCast]⟩
  refine (reaches_setup (w := w) h (m N hN).1 (m s hs).1 (m N hN).2 (m s hs).2 hN0 hs0 ts).trans (.head ?_)
  have e1 : step w (.setup N s) = .aborted (some []) := by
    rcases hdir with hd | hd <;> simp [step, setup, hd, ho, hx]
  rw [e1]
  exact .refl _

theorem Export.final_step {c : Conf E S P F} (h : c.final) : step w c = c := by
  cases c <;> simp_all [Conf.final, step]

/-- If a configuration is reached from which an invariant keeps the program running, it runs forever. -/
theorem Export.forever {tokens : List Token} {c : Conf E S P F} (hc : Reaches w (.prompt 0 0 ⟨tokens, false⟩) c) (Inv : Conf E S P F → Prop) (h0 : Inv c)
    (hstep : ∀ c, Inv c → Inv (step w c)) (hnot : ∀ c, Inv c → ¬ c.final) : RunsForever w tokens := by
  obtain ⟨k, hk⟩ := hc
  intro n hn
  have inv : ∀ m, Inv ((step w)^[m] c) := by
    intro m
    induction m with
    | zero => exact h0
    | succ m ih => rw [Function.iterate_succ_apply']; exact hstep _ ih
  have stay : ∀ m, (step w)^[m] (run w tokens n) = run w tokens n := fun m => Function.iterate_fixed (final_step hn) m
  refine hnot _ (inv n) ?_
  have : (step w)^[n] c = run w tokens n := by
    rw [← stay k, ← hk, run, ← Function.iterate_add_apply, ← Function.iterate_add_apply, Nat.add_comm]
  rw [this]
  exact hn

/-- **C76 fails when the input ends.** If the input ends, or is not a number, before both answers are positive, the program asks
forever. -/
theorem C76_input_fails {l : List (ℕ × ℕ)} (h : Rejected l) {ts : List Token} (ht : ts = [] ∨ ∃ ts', ts = .text :: ts') : RunsForever w (answers l ++ ts) := by
  obtain ⟨N, s, hz, hr⟩ := reaches_rejected (w := w) h ts 0 0 (.inl rfl)
  let Inv : Conf E S P F → Prop := fun c => ∃ N s inp, (N = 0 ∨ s = 0) ∧ inp.failed = true ∧ c = .prompt N s inp
  have h1 : Inv (step w (.prompt N s ⟨ts, false⟩)) := by
    rcases ht with rfl | ⟨ts', rfl⟩
    · refine ⟨N, s, ⟨[], true⟩, hz, rfl, ?_⟩
      have e1 : ∀ x, extract x ⟨[], false⟩ = (x, ⟨[], true⟩) := fun _ => rfl
      have e2 : ∀ x, extract x ⟨[], true⟩ = (x, ⟨[], true⟩) := fun _ => rfl
      simp only [step, prompt, e1, e2]
      rw [if_pos (by omega)]
    · refine ⟨0, s, ⟨.text :: ts', true⟩, .inl rfl, rfl, ?_⟩
      simp [step, prompt, extract]
  refine forever (hr.trans (.head (.refl _))) Inv h1 ?_ ?_
  · rintro c ⟨N, s, inp, hz, hf, rfl⟩
    refine ⟨N, s, inp, hz, hf, ?_⟩
    simp only [step, prompt, extract, hf, if_true]
    rw [if_pos (by omega)]
  · rintro c ⟨N, s, inp, -, -, rfl⟩
    exact id

/-- **C76 fails for the largest number of samples.** With `N` the largest `unsigned int`, which is also how the answer -1 is read,
the loop over the samples never ends. -/
theorem C76_samples_fails {l : List (ℕ × ℕ)} (h : Rejected l) {n : Int} (hn : n = -1 ∨ n = UINT_MOD - 1) {s : ℕ} (hs0 : 0 < s) (hs : s + 1 < UINT_MOD) (ts : List Token)
    (hdir : w.dir = .present ∨ w.dir = .creatable) (ho : w.opens = true) {a : S} {b : P} (ha : w.sobol.seeded s 42 = .ok a) (hb : w.faure.seeded s 42 = .ok b)
    {ps pf : ℕ → ℕ → F} (hS : Delivers w.sobol a s ps) (hF : Delivers w.faure b s pf) : RunsForever w (answers l ++ .num n :: .num s :: ts) := by
  obtain ⟨tS, hS0, hS⟩ := hS
  obtain ⟨tF, hF0, hF⟩ := hF
  have hn1 : n.natAbs < UINT_MOD := by rcases hn with rfl | rfl <;> simp [UINT_MOD]
  have hn2 : (n % (UINT_MOD : Int)).toNat = UINT_MOD - 1 := by rcases hn with rfl | rfl <;> simp [UINT_MOD]
  have hs1 : ((s : Int)).natAbs < UINT_MOD := by rw [Int.natAbs_natCast]; omega
  have hs2 : ((s : Int) % (UINT_MOD : Int)).toNat = s := by
    rw [Int.emod_eq_of_lt (Int.natCast_nonneg _) (by exact_mod_cast (by omega : s < UINT_MOD)), Int.toNat_natCast]
  have hr := reaches_setup (w := w) h hn1 hs1 hn2 hs2 (by simp [UINT_MOD]) hs0 ts
  have e1 : step w (.setup (UINT_MOD - 1) s) =
      .outer ⟨UINT_MOD - 1, s, w.engine, a, b, List.replicate s (Fl.lit 0), List.replicate s (Fl.lit 0), write w [] .header⟩ 1 := by
    rcases hdir with hd | hd <;> simp [step, setup, hd, ho, ha, hb]
  let Good : Vars E S P F → ℕ → Prop := fun v i => v.N = UINT_MOD - 1 ∧ v.s = s ∧ (∃ k, v.sobol = tS k) ∧ (∃ k, v.faure = tF k) ∧ i < UINT_MOD
  let Inv : Conf E S P F → Prop := fun c => (∃ v i, Good v i ∧ c = .outer v i) ∨
    ∃ v i d, Good v i ∧ d ≤ s ∧ (∃ p, v.sobolPoint = (List.range s).map p) ∧ (∃ p, v.faurePoint = (List.range s).map p) ∧ c = .inner v i (d + 1)
  refine forever (hr.trans (.head (.refl _))) Inv ?_ ?_ ?_
  · rw [e1]
    exact .inl ⟨_, _, ⟨rfl, rfl, ⟨0, hS0.symm⟩, ⟨0, hF0.symm⟩, by simp [UINT_MOD]⟩, rfl⟩
  · rintro c (⟨v, i, ⟨h1, h2, ⟨k, h3⟩, ⟨k', h4⟩, h5⟩, rfl⟩ | ⟨v, i, d, ⟨h1, h2, h3, h4, h5⟩, hd, ⟨p, hp⟩, ⟨p', hp'⟩, rfl⟩)
    · refine .inr ⟨⟨v.N, v.s, v.engine, tS (k + 1), tF (k' + 1), (List.range s).map (ps k), (List.range s).map (pf k'), v.file⟩, i, 0,
        ⟨h1, h2, ⟨_, rfl⟩, ⟨_, rfl⟩, h5⟩, Nat.zero_le _, ⟨_, rfl⟩, ⟨_, rfl⟩, ?_⟩
      simp only [step, outer, h3, h4, hS, hF]
      rw [if_pos (by omega)]
    · subst h2
      rcases hd.lt_or_eq with hlt | heq
      · rw [step_inner hlt hs hp hp']
        exact .inr ⟨⟨v.N, v.s, (w.uniform v.engine).2, v.sobol, v.faure, v.sobolPoint, v.faurePoint, _⟩, i, d + 1, ⟨h1, rfl, h3, h4, h5⟩, hlt, ⟨p, hp⟩, ⟨p', hp'⟩, rfl⟩
      · refine .inl ⟨v, usucc i, ⟨h1, rfl, h3, h4, ?_⟩, ?_⟩
        · unfold usucc
          split <;> simp only [UINT_MOD] at * <;> omega
        · simp only [step, inner]
          rw [if_neg (by omega)]
  · rintro c (⟨v, i, -, rfl⟩ | ⟨v, i, d, -, -, -, -, rfl⟩) <;> exact id

end

/-! ## Examples -/

namespace ExportExample

/-- Sequences which count, in at most 3667 dimensions, and a disk with room for `room` lines. -/
noncomputable def world (room : Option ℕ) (opens : Bool := true) : World ℕ (ℕ × ℕ) (ℕ × ℕ) ℝ where
  dir := .creatable
  opens := opens
  room := room
  engine := 0
  uniform e := (1 / (e + 2), e + 1)
  sobol := ⟨fun s k => if s ≤ 3667 then .ok (s, k) else .throw ⟨.invalidArgument, "dimension"⟩, fun q => (.ok ((List.range q.1).map fun d : ℕ => ((q.2 : ℝ) + (d : ℝ))), (q.1, q.2 + 1)), 1000⟩
  faure := ⟨fun s k => if s ≤ 3667 then .ok (s, k) else .throw ⟨.invalidArgument, "dimension"⟩, fun q => (.ok ((List.range q.1).map fun d : ℕ => ((q.2 : ℝ) * (d : ℝ))), (q.1, q.2 + 1)), 1⟩

theorem sobol (room : Option ℕ) (o : Bool) (s : ℕ) : Delivers (world room o).sobol (s, 42) s fun k d => ((42 + k : ℕ) + d : ℝ) :=
  ⟨fun k => (s, 42 + k), rfl, fun k => by simp [world, Nat.add_assoc]⟩

theorem faure (room : Option ℕ) (o : Bool) (s : ℕ) : Delivers (world room o).faure (s, 42) s fun k d => ((42 + k : ℕ) * d : ℝ) :=
  ⟨fun k => (s, 42 + k), rfl, fun k => by simp [world, Nat.add_assoc]⟩

theorem uniform (room : Option ℕ) (o : Bool) : Produces (world room o).uniform (world room o).engine fun k => 1 / ((k : ℝ) + 2) := ⟨fun k => k, rfl, fun _ => rfl⟩

theorem rejected : Rejected [(0, 3), (7, 0)] := by simp [Rejected, UINT_MOD]

/-- Two rejected rounds, then 1000 samples in 5 dimensions. -/
example : EndsIn (world none) [.num 0, .num 3, .num 7, .num 0, .num 1000, .num 5]
    (.exited 0 (some (exported 1000 5 (fun k d => ((42 + k : ℕ) + d : ℝ)) (fun k d => ((42 + k : ℕ) * d : ℝ)) 1000 1 fun k => 1 / ((k : ℝ) + 2))) true) :=
  C76_file_partial (w := world none) rejected (N := 1000) (s := 5) (by norm_num) (by norm_num) (by simp [UINT_MOD]) (by simp [UINT_MOD]) [] (.inr rfl) rfl
    (a := (5, 42)) (b := (5, 42)) (by simp [world]) (by simp [world]) (sobol _ _ _) (faure _ _ _) (uniform _ _) (fun m h => by simp [world] at h)

/-- A disk with room for 100 lines. -/
example : ∃ file, file.length = 100 ∧ EndsIn (world (some 100)) [.num 1000, .num 5] (.exited 0 (some file) true) := by
  obtain ⟨file, h1, -, h3⟩ := C76_disk_fails (w := world (some 100)) (l := []) (by simp [Rejected]) (N := 1000) (s := 5) (by norm_num) (by norm_num) (by simp [UINT_MOD])
    (by simp [UINT_MOD]) [] (.inr rfl) rfl (a := (5, 42)) (b := (5, 42)) (by simp [world]) (by simp [world]) (sobol _ _ _) (faure _ _ _) (uniform _ _) (m := 100) rfl
    (by norm_num)
  exact ⟨file, h1, h3⟩

example : EndsIn (world none false) [.num 0, .num 3, .num 7, .num 0, .num 1000, .num 5] (.exited 1 none false) :=
  C76_open (w := world none false) rejected (N := 1000) (s := 5) (by norm_num) (by norm_num) (by simp [UINT_MOD]) (by simp [UINT_MOD]) [] (.inr rfl) rfl

example : EndsIn (world none) [.num 0, .num 3, .num 7, .num 0, .num 10, .num 5000] (.aborted (some [])) :=
  C76_dimension_fails (w := world none) rejected (N := 10) (s := 5000) (by norm_num) (by norm_num) (by simp [UINT_MOD]) (by simp [UINT_MOD]) [] (.inr rfl) rfl
    (x := ⟨.invalidArgument, "dimension"⟩) (by simp [world])

/-- No input, and a word instead of a number. -/
example : RunsForever (world none) [] ∧ RunsForever (world none) [.num 0, .num 3, .num 7, .num 0, .text] :=
  ⟨C76_input_fails (w := world none) (l := []) (by simp [Rejected]) (.inl rfl), C76_input_fails (w := world none) rejected (.inr ⟨[], rfl⟩)⟩

/-- The answers -1 and 3. -/
example : RunsForever (world none) [.num (-1), .num 3] :=
  C76_samples_fails (w := world none) (l := []) (by simp [Rejected]) (.inl rfl) (s := 3) (by norm_num) (by simp [UINT_MOD]) [] (.inr rfl) rfl
    (a := (3, 42)) (b := (3, 42)) (by simp [world]) (by simp [world]) (sobol _ _ _) (faure _ _ _)

end ExportExample
end Verif
