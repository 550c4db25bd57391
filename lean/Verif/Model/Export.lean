import Verif.Model.Random

/-!
# The program examples/generate_sobol.cpp

The program can run forever, so it is modelled by single steps between configurations.
-/

namespace Verif.Export

/-- What `std::cin >> N` finds after white space: the longest text that is an integer, or other text.  A text like `5abc` is
the integer 5 followed by other text. -/
inductive Token
  | num (v : Int)
  | text
  deriving Repr

/-- `std::cin`: the remaining input, which ends after the last token, and whether the stream has failed. -/
structure Input where
  tokens : List Token
  failed : Bool
  deriving Repr

/-- `std::cin >> x` for an `unsigned int x` with the value `old` (generate_sobol.cpp:27,29).  A failed stream and the end of
the input leave `x` alone (the sentry fails); text sets it to 0 and fails; a negative number whose absolute value fits wraps;
a number which does not fit sets it to the maximum and fails ([facet.num.get.virtuals]). -/
def extract (old : Nat) (inp : Input) : Nat × Input :=
  if inp.failed then (old, inp)
  else match inp.tokens with
    | [] => (old, ⟨[], true⟩)
    | .text :: _ => (0, { inp with failed := true })
    | .num v :: ts =>
      if v.natAbs < UINT_MOD then ((v % (UINT_MOD : Int)).toNat, ⟨ts, false⟩)
      else (UINT_MOD - 1, ⟨ts, true⟩)

/-- A line of the file (generate_sobol.cpp:56,70-74).  Simplification: numbers are kept as they are; the program prints them
with 8 decimals. -/
inductive Line (F : Type)
  | header
  | row (sample dimension : Nat) (sobol faure uniform : F)

/-- What `createOutputDir` finds (generate_sobol.cpp:12-21): the directory exists, can be created, or
`create_directory` throws (for instance because its parent does not exist). -/
inductive Dir
  | present
  | creatable
  | failing

/-- The surroundings of the program.  `uniform` is `uniformGen(unifRng)`, `engine` the state of `unifRng(42)`; `opens` tells
whether the file can be opened; `room` is the number of lines the disk takes (simplification: lines are written whole). -/
structure World (E S P F : Type) where
  dir : Dir
  opens : Bool
  room : Option Nat
  engine : E
  uniform : E → F × E
  sobol : Quasi.Sequence S F
  faure : Quasi.Sequence P F

/-- The local variables of the loops (generate_sobol.cpp:42-53) and the lines on disk. -/
structure Vars (E S P F : Type) where
  N : Nat
  s : Nat
  engine : E
  sobol : S
  faure : P
  sobolPoint : List F
  faurePoint : List F
  file : List (Line F)

/-- Where the program is.  `outer i` is the test `i <= N`, `inner i d` the test `d <= s`.  `exited` carries the exit code, the
lines on disk (`none`: the file was not opened) and whether the message "Sequences exported" was printed; `aborted` is
`std::terminate` after an exception which nobody catches. -/
inductive Conf (E S P F : Type)
  | prompt (N s : Nat) (inp : Input)
  | setup (N s : Nat)
  | outer (v : Vars E S P F) (i : Nat)
  | inner (v : Vars E S P F) (i d : Nat)
  | exited (code : Nat) (file : Option (List (Line F))) (message : Bool)
  | aborted (file : Option (List (Line F)))
  | ub

variable {E S P F : Type}

/-- The program is over. -/
def Conf.final : Conf E S P F → Prop
  | .exited .. | .aborted _ | .ub => True
  | _ => False

/-- `csvFile << line`: a full disk sets the bad bit, after which nothing is written. -/
def write (w : World E S P F) (file : List (Line F)) (l : Line F) : List (Line F) :=
  match w.room with
  | none => file ++ [l]
  | some n => if file.length < n then file ++ [l] else file

/-- `++i` on an `unsigned int`. -/
def usucc (i : Nat) : Nat := if i + 1 = UINT_MOD then 0 else i + 1

/-- generate_sobol.cpp:25-30: one turn of the `do` loop. -/
def prompt (N s : Nat) (inp : Input) : Conf E S P F :=
  let (N, inp) := extract N inp
  let (s, inp) := extract s inp
  if N ≤ 0 ∨ s ≤ 0 then .prompt N s inp else .setup N s

variable [Fl F] [Div F]

/-- generate_sobol.cpp:32-56.  The file is opened, and thereby emptied, before the sequences are constructed; these may throw
(Boost supports a limited number of dimensions). -/
def setup (w : World E S P F) (N s : Nat) : Conf E S P F :=
  match w.dir with
  | .failing => .aborted none
  | _ =>
    if !w.opens then .exited 1 none false
    else match w.sobol.seeded s 42, w.faure.seeded s 42 with
      | .ok a, .ok b => .outer ⟨N, s, w.engine, a, b, List.replicate s (Fl.lit 0), List.replicate s (Fl.lit 0), write w [] .header⟩ 1
      | .ub, _ => .ub
      | .throw _, _ => .aborted (some [])
      | .ok _, .ub => .ub
      | .ok _, .throw _ => .aborted (some [])

/-- generate_sobol.cpp:58-61 and, when the loop is over, 78-81. -/
def outer (w : World E S P F) (v : Vars E S P F) (i : Nat) : Conf E S P F :=
  if i ≤ v.N then
    match w.sobol.generate v.sobol with
    | (.ok p, a) =>
      match w.faure.generate v.faure with
      | (.ok p', b) => .inner { v with sobol := a, faure := b, sobolPoint := p, faurePoint := p' } i 1
      | (.throw _, _) => .aborted (some v.file)
      | (.ub, _) => .ub
    | (.throw _, _) => .aborted (some v.file)
    | (.ub, _) => .ub
  else .exited 0 (some v.file) true

/-- generate_sobol.cpp:63-75, and `++i`. -/
def inner (w : World E S P F) (v : Vars E S P F) (i d : Nat) : Conf E S P F :=
  if d ≤ v.s then
    match vget v.sobolPoint (upred d), vget v.faurePoint (upred d) with
    | .ok x, .ok y =>
      let (u, e) := w.uniform v.engine
      .inner { v with engine := e, file := write w v.file (.row i d (x / w.sobol.scale) (y / w.faure.scale) u) } i (usucc d)
    | _, _ => .ub
  else .outer v (usucc i)

/-- One step of the program. -/
def step (w : World E S P F) : Conf E S P F → Conf E S P F
  | .prompt N s inp => prompt N s inp
  | .setup N s => setup w N s
  | .outer v i => outer w v i
  | .inner v i d => inner w v i d
  | c => c

/-- The program after `n` steps (generate_sobol.cpp:23-24). -/
def run (w : World E S P F) (tokens : List Token) (n : Nat) : Conf E S P F := (step w)^[n] (.prompt 0 0 ⟨tokens, false⟩)

end Verif.Export
