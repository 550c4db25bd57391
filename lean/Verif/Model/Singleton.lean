/-!
# `MarketData::getInstance` under concurrency (`/repo/src/market_data/market_data.cpp`:8-17)

Small-step model.  Threads are the elements of an arbitrary type `ι`; a schedule is a list of
(thread, does an allocation succeed) pairs; every step of a thread is one access to shared data.
Objects are numbered in the order of construction.  Sequentially consistent memory is assumed for
`instance_`; all accesses to it are inside the critical section (this is part of what is proved).
-/

namespace Verif.Singleton

/-- Where a thread is inside `getInstance` (market_data.cpp:11-17). -/
inductive PC
  /-- not in a call -/
  | idle
  /-- line 12: waiting for `mutex_` -/
  | acquiring
  /-- line 13: about to test `instance_` -/
  | checking
  /-- line 14: about to run `new MarketData()` -/
  | allocating
  /-- line 14: about to assign the new object to `instance_` -/
  | assigning (o : Nat)
  /-- line 16: about to copy `instance_` into the result -/
  | returning
  /-- end of scope: about to unlock; `some v` is the result (`v` the pointer), `none` an exception
  (`std::bad_alloc`) that is leaving the function -/
  | releasing (result : Option (Option Nat))
  deriving DecidableEq, Repr

/-- Shared state, program counters and the results of the completed calls, oldest first. -/
structure State (ι : Type) where
  inst : Option Nat
  lock : Option ι
  constructed : Nat
  pc : ι → PC
  results : List (ι × Option (Option Nat))

variable {ι : Type} [DecidableEq ι]

/-- Program start (market_data.cpp:8-9): null pointer, free mutex. -/
def init : State ι :=
  { inst := none, lock := none, constructed := 0, pc := fun _ => .idle, results := [] }

/-- Set the program counter of one thread. -/
def State.goto (s : State ι) (i : ι) (p : PC) : State ι :=
  { s with pc := fun j => if j = i then p else s.pc j }

/-- One step of thread `i` (market_data.cpp:11-17); a thread waiting for a taken mutex does not
move.  `allocOk` says whether an allocation made in this step succeeds. -/
def step (s : State ι) (i : ι) (allocOk : Bool) : State ι :=
  match s.pc i with
  | .idle => s.goto i .acquiring
  | .acquiring =>
    match s.lock with
    | none => { s.goto i .checking with lock := some i }
    | some _ => s
  | .checking =>
    match s.inst with
    | none => s.goto i .allocating
    | some _ => s.goto i .returning
  | .allocating =>
    if allocOk then { s.goto i (.assigning s.constructed) with constructed := s.constructed + 1 }
    else s.goto i (.releasing none)
  | .assigning o => { s.goto i .returning with inst := some o }
  | .returning => s.goto i (.releasing (some s.inst))
  | .releasing r =>
    { s.goto i .idle with lock := none, results := s.results ++ [(i, r)] }

/-- A whole schedule. -/
def run (s : State ι) (sched : List (ι × Bool)) : State ι :=
  sched.foldl (fun s e => step s e.1 e.2) s

/-- The thread is between locking and unlocking the mutex. -/
def inCritical : PC → Bool
  | .idle => false
  | .acquiring => false
  | _ => true

end Verif.Singleton
