/-!
# Outcomes of C++ calls

A call either returns, throws a standard exception, or has undefined behaviour.
Undefined behaviour is a separate outcome: no theorem may treat it as a value.
-/

namespace Verif

/-- The exception classes thrown by `/repo` (`std::invalid_argument`, `std::logic_error`,
`std::runtime_error`).  `std::invalid_argument` derives from `std::logic_error` in C++; the model
records the dynamic type only. -/
inductive ExcKind
  | invalidArgument
  | logicError
  | runtimeError
  deriving DecidableEq, Repr

/-- A thrown exception: dynamic type and `what()`. -/
structure Exc where
  kind : ExcKind
  msg : String
  deriving DecidableEq, Repr

/-- Outcome of a call: normal return, exception, or undefined behaviour. -/
inductive Res (α : Type)
  | ok (a : α)
  | throw (e : Exc)
  | ub
  deriving DecidableEq, Repr

namespace Res

/-- Sequencing: stop at the first exception or undefined behaviour. -/
def bind {α β : Type} : Res α → (α → Res β) → Res β
  | ok a, f => f a
  | throw e, _ => throw e
  | ub, _ => ub

instance : Monad Res where
  pure := ok
  bind := bind

variable {α β γ : Type}

@[simp] theorem pure_eq (a : α) : (pure a : Res α) = ok a := rfl
@[simp] theorem bind_ok (a : α) (f : α → Res β) : (ok a >>= f) = f a := rfl
@[simp] theorem bind_throw (e : Exc) (f : α → Res β) : ((throw e : Res α) >>= f) = throw e := rfl
@[simp] theorem bind_ub (f : α → Res β) : ((ub : Res α) >>= f) = ub := rfl
@[simp] theorem map_ok (a : α) (f : α → β) : f <$> (ok a) = ok (f a) := rfl
@[simp] theorem map_throw (e : Exc) (f : α → β) : f <$> (throw e : Res α) = throw e := rfl
@[simp] theorem map_ub (f : α → β) : f <$> (ub : Res α) = ub := rfl

instance : LawfulMonad Res := LawfulMonad.mk' Res
  (id_map := fun x => by cases x <;> rfl)
  (pure_bind := fun _ _ => rfl)
  (bind_assoc := fun x _ _ => by cases x <;> rfl)

/-- The outcome is an exception of class `k` (with any message). -/
def Throws (k : ExcKind) (x : Res α) : Prop := ∃ m, x = throw ⟨k, m⟩

/-- The outcome is a normal return. -/
def IsOk (x : Res α) : Prop := ∃ a, x = ok a

@[simp] theorem throws_ok (k : ExcKind) (a : α) : ¬ Throws k (ok a) := by
  rintro ⟨m, h⟩; cases h
@[simp] theorem throws_ub (k : ExcKind) : ¬ Throws k (ub : Res α) := by
  rintro ⟨m, h⟩; cases h
@[simp] theorem throws_throw (k : ExcKind) (e : Exc) :
    Throws k (throw e : Res α) ↔ e.kind = k := by
  constructor
  · rintro ⟨m, h⟩; cases h; rfl
  · intro h; exact ⟨e.msg, by cases e; cases h; rfl⟩
@[simp] theorem isOk_ok (a : α) : IsOk (ok a) := ⟨a, rfl⟩
@[simp] theorem isOk_throw (e : Exc) : ¬ IsOk (throw e : Res α) := by
  rintro ⟨m, h⟩; cases h
@[simp] theorem isOk_ub : ¬ IsOk (ub : Res α) := by
  rintro ⟨m, h⟩; cases h

theorem ok_ne_ub (a : α) : (ok a : Res α) ≠ ub := by intro h; cases h

theorem bind_eq_ok {x : Res α} {f : α → Res β} {b : β} :
    (x >>= f) = ok b ↔ ∃ a, x = ok a ∧ f a = ok b := by
  cases x <;> simp

end Res

/-- `std::invalid_argument(msg)` -/
def invalidArg {α : Type} (msg : String) : Res α := .throw ⟨.invalidArgument, msg⟩
/-- `std::logic_error(msg)` -/
def logicErr {α : Type} (msg : String) : Res α := .throw ⟨.logicError, msg⟩
/-- `std::runtime_error(msg)` -/
def runtimeErr {α : Type} (msg : String) : Res α := .throw ⟨.runtimeError, msg⟩

section
variable {α : Type}
@[simp] theorem throws_invalidArg (k : ExcKind) (m : String) :
    Res.Throws k (invalidArg m : Res α) ↔ k = .invalidArgument := by
  simp [invalidArg, eq_comm]
@[simp] theorem throws_logicErr (k : ExcKind) (m : String) :
    Res.Throws k (logicErr m : Res α) ↔ k = .logicError := by
  simp [logicErr, eq_comm]
@[simp] theorem throws_runtimeErr (k : ExcKind) (m : String) :
    Res.Throws k (runtimeErr m : Res α) ↔ k = .runtimeError := by
  simp [runtimeErr, eq_comm]
@[simp] theorem isOk_invalidArg (m : String) : ¬ Res.IsOk (invalidArg m : Res α) := by
  simp [invalidArg]
@[simp] theorem isOk_logicErr (m : String) : ¬ Res.IsOk (logicErr m : Res α) := by
  simp [logicErr]
@[simp] theorem isOk_runtimeErr (m : String) : ¬ Res.IsOk (runtimeErr m : Res α) := by
  simp [runtimeErr]
@[simp] theorem invalidArg_ne_ok (m : String) (a : α) : (invalidArg m : Res α) ≠ .ok a := by
  simp [invalidArg]
@[simp] theorem logicErr_ne_ok (m : String) (a : α) : (logicErr m : Res α) ≠ .ok a := by
  simp [logicErr]
@[simp] theorem runtimeErr_ne_ok (m : String) (a : α) : (runtimeErr m : Res α) ≠ .ok a := by
  simp [runtimeErr]
@[simp] theorem invalidArg_ne_ub (m : String) : (invalidArg m : Res α) ≠ .ub := by
  simp [invalidArg]
@[simp] theorem logicErr_ne_ub (m : String) : (logicErr m : Res α) ≠ .ub := by
  simp [logicErr]
@[simp] theorem runtimeErr_ne_ub (m : String) : (runtimeErr m : Res α) ≠ .ub := by
  simp [runtimeErr]
@[simp] theorem invalidArg_bind {β : Type} (m : String) (f : α → Res β) :
    ((invalidArg m : Res α) >>= f) = invalidArg m := rfl
@[simp] theorem logicErr_bind {β : Type} (m : String) (f : α → Res β) :
    ((logicErr m : Res α) >>= f) = logicErr m := rfl
@[simp] theorem runtimeErr_bind {β : Type} (m : String) (f : α → Res β) :
    ((runtimeErr m : Res α) >>= f) = runtimeErr m := rfl
end

/-- Effectful C++ code over a state `σ`.  The state is returned for every outcome, so that what a
throwing call leaves behind is visible. -/
def Eff (σ α : Type) := σ → Res α × σ

namespace Eff
variable {σ α β γ : Type}

/-- Sequencing; an exception stops the computation and keeps the state reached so far. -/
def bind (x : Eff σ α) (f : α → Eff σ β) : Eff σ β := fun s =>
  match x s with
  | (.ok a, s') => f a s'
  | (.throw e, s') => (.throw e, s')
  | (.ub, s') => (.ub, s')

instance : Monad (Eff σ) where
  pure a := fun s => (.ok a, s)
  bind := bind

/-- Run a pure outcome inside the effectful code. -/
def lift (r : Res α) : Eff σ α := fun s => (r, s)

@[simp] theorem pure_apply (a : α) (s : σ) : (pure a : Eff σ α) s = (.ok a, s) := rfl

theorem bind_apply (x : Eff σ α) (f : α → Eff σ β) (s : σ) :
    (x >>= f) s = match x s with
      | (.ok a, s') => f a s'
      | (.throw e, s') => (.throw e, s')
      | (.ub, s') => (.ub, s') := rfl

theorem bind_of_ok {x : Eff σ α} {f : α → Eff σ β} {s s' : σ} {a : α} (h : x s = (.ok a, s')) :
    (x >>= f) s = f a s' := by simp [bind_apply, h]

theorem bind_of_throw {x : Eff σ α} {f : α → Eff σ β} {s s' : σ} {e : Exc}
    (h : x s = (.throw e, s')) : (x >>= f) s = (.throw e, s') := by simp [bind_apply, h]

theorem bind_of_ub {x : Eff σ α} {f : α → Eff σ β} {s s' : σ}
    (h : x s = (.ub, s')) : (x >>= f) s = (.ub, s') := by simp [bind_apply, h]

@[simp] theorem lift_apply (r : Res α) (s : σ) : (lift r : Eff σ α) s = (r, s) := rfl

instance : LawfulMonad (Eff σ) := LawfulMonad.mk' (Eff σ)
  (id_map := fun x => by
    funext s
    show bind x _ s = _
    unfold bind
    rcases x s with ⟨r, s'⟩
    cases r <;> rfl)
  (pure_bind := fun _ _ => rfl)
  (bind_assoc := fun x f g => by
    funext s
    show bind (bind x f) g s = bind x (fun a => bind (f a) g) s
    simp only [bind]
    rcases x s with ⟨r, s'⟩
    cases r <;> rfl)

end Eff

end Verif
