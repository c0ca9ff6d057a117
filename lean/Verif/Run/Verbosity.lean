import Mathlib.Data.Real.Basic

/-!
# How much is printed

Model of the class `Verbosity` of `/repo/ipi/utils/messages.py`, of how the level is taken from the input
file and the command line and put into the restart file (`/repo/ipi/inputs/simulation.py`,
`/repo/ipi/engine/simulation.py`, `/repo/bin/i-pi`), and of the timings that the main loop prints.
-/

namespace Verif.Verb

/-- The state: the lock and the level (`messages.py` L39-40). -/
structure Verb where
  lock : Bool
  level : ℕ
  deriving DecidableEq, Repr

/-- The state at import (`messages.py` L23-28, L39-40). -/
def Verb.start : Verb := ⟨false, 1⟩

/-- `__setattr__` for `level` (`messages.py` L82-105); a `ValueError` leaves the state as it is. -/
def setLevel (v : Verb) (value : String) : Except String Verb :=
  if v.lock then .ok v
  else if value = "quiet" then .ok { v with level := 0 }
  else if value = "low" then .ok { v with level := 1 }
  else if value = "medium" then .ok { v with level := 2 }
  else if value = "high" then .ok { v with level := 3 }
  else if value = "debug" then .ok { v with level := 4 }
  else if value = "trace" then .ok { v with level := 5 }
  else .error "Invalid verbosity level"

/-- `__getattr__` (`messages.py` L42-69): whether a message of this level is printed; `none` is an
`AttributeError`. -/
def shown (v : Verb) (name : String) : Option Bool :=
  if name = "quiet" then some (decide (0 ≤ v.level))
  else if name = "low" then some (decide (1 ≤ v.level))
  else if name = "medium" then some (decide (2 ≤ v.level))
  else if name = "high" then some (decide (3 ≤ v.level))
  else if name = "debug" then some (decide (4 ≤ v.level))
  else if name = "trace" then some (decide (5 ≤ v.level))
  else none

/-- What is done to the object: an assignment to the level, whose error may be caught, or to the lock. -/
inductive Op where
  | level (value : String)
  | lock (b : Bool)

/-- One operation. -/
def Op.apply (v : Verb) : Op → Verb
  | .level s => match setLevel v s with
    | .ok w => w
    | .error _ => v
  | .lock b => { v with lock := b }

/-- The name that goes into the restart file (`inputs/simulation.py` L231-242); the last branch raises. -/
def stored (v : Verb) : Except String String :=
  if shown v "debug" = some true then .ok "debug"
  else if shown v "high" = some true then .ok "high"
  else if shown v "medium" = some true then .ok "medium"
  else if shown v "low" = some true then .ok "low"
  else if shown v "quiet" = some true then .ok "quiet"
  else .error "Invalid verbosity level"

/-- The values the input file may have (`inputs/simulation.py` L99-107), which are also those of the
command line (`bin/i-pi` L98-100). -/
def options : List String := ["quiet", "low", "medium", "high", "debug"]

/-- What a start of the program gives: the state, whether the banner and whether the content of the input
file are printed. -/
structure Started where
  verb : Verb
  banner : Bool
  echo : Bool
  deriving DecidableEq, Repr

/-- `load_from_xml` as far as the level goes (`engine/simulation.py` L115-137, `inputs/simulation.py`
L336, `ipi/utils/inputvalue.py` L1010-1028).  Both values are checked against the options when they are
fetched; the value of the file is not fetched if there is another. -/
def load (v : Verb) (file : String) (custom : Option String) : Except String Started :=
  match custom with
  | none =>
    if file ∈ options then
      match setLevel v file with
      | .ok w => .ok ⟨w, file != "quiet", (shown w "medium").getD false⟩
      | .error e => .error e
    else .error "not a valid option"
  | some c =>
    if c ∈ options then
      match setLevel v c with
      | .ok w => .ok ⟨w, c != "quiet", (shown w "medium").getD false⟩
      | .error e => .error e
    else .error "not a valid option"

/-- A run and its restarts: each a new process that reads the level of the last restart file, with or
without a value of the command line; the level in the last restart file. -/
def generations (file : String) : List (Option String) → Except String String
  | [] => .ok file
  | c :: cs => match load Verb.start file c with
    | .ok s => match stored s.verb with
      | .ok f => generations f cs
      | .error e => .error e
    | .error e => .error e

/-- Whether the timings are printed after this step (`engine/simulation.py` L397-401). -/
def reports (v : Verb) (step : ℕ) : Bool :=
  shown v "high" == some true || (shown v "medium" == some true && step % 100 == 0)
    || (shown v "low" == some true && step % 1000 == 0)

/-- The timings of the main loop (`engine/simulation.py` L354-407): `ttot`, `cstep` and the lines printed
so far, each with the step, the number of steps it is about and the average.  The number of steps is not
printed. -/
structure Timer where
  ttot : ℝ
  cstep : ℕ
  out : List (ℕ × ℕ × ℝ)

/-- One step that took the time `t`. -/
noncomputable def tick (v : Verb) (s : Timer) (x : ℕ × ℝ) : Timer :=
  let ttot := s.ttot + x.2
  let cstep := s.cstep + 1
  if reports v x.1 then ⟨0, 0, s.out ++ [(x.1, cstep, ttot / cstep)]⟩ else ⟨ttot, cstep, s.out⟩

/-- The loop from `start` on, with the times of the steps. -/
noncomputable def timings (v : Verb) (start : ℕ) (ts : List ℝ) : Timer :=
  ((List.range' start ts.length).zip ts).foldl (tick v) ⟨0, 0, []⟩

end Verif.Verb
