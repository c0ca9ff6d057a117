/-
Model of the main loop, outputs, checkpoints, interruption and restart.

* `Simulation.run` (ipi/engine/simulation.py:326-431), `run_step` 433-466, `softexit` 309-324, `bind` 222-240 (append or fresh files);
* `PropertyOutput.write` (ipi/engine/outputs.py:262-297), `TrajectoryOutput.write` 440-505 (same pattern), `active` 161, 712;
* `CheckpointOutput.store` 714-725, `write` 727-779.

The physical state (positions, momenta, thermostats, random generator, ...) is an element of a type `X`; a step is a list of partial
updates (the motion of each system, then the super motion), so that an interruption may find it half done. Storing a state and reading
it back is assumed exact (the text formats are the subject of C26). A run is the list of its elementary actions in program order; an
interruption is a prefix of that list.
-/
namespace Verif.Run
variable {X : Type}

/-- One entry of an output file: file, label printed (step + 1; 0 for the initial configuration), state printed. -/
structure Row (X : Type) where
  file : Nat
  label : Nat
  state : X

/-- An output of the simulation: a property or trajectory file, or a checkpoint file (overwritten each time). -/
inductive Out where
  | rows (file stride flush : Nat)
  | checkpoint (stride : Nat)
deriving DecidableEq

/-- Elementary actions. -/
inductive Act (X : Type) where
  /-- `self.chk.store()` at the beginning of step `k` (simulation.py:369-370) -/
  | store (k : Nat)
  /-- a part of `run_step` -/
  | move (f : X → X)
  /-- `o.write()` of a property or trajectory output (outputs.py:272-297) -/
  | row (file stride flush label : Nat)
  /-- opening the checkpoint file with mode "w" empties it (outputs.py:771) -/
  | trunc (stride label : Nat)
  /-- writing the checkpoint: the stored state with step set to `step + 1` (outputs.py:766-774) -/
  | ckpt (stride label : Nat)

/-- Everything that outlives an action: memory of the process and files. -/
structure St (X : Type) where
  x : X
  /-- state kept for the RESTART file, with its step -/
  stored : Nat × X
  /-- rows on disk -/
  disk : List (Row X) := []
  /-- rows still in the buffer of an output -/
  buf : List (Row X) := []
  /-- content of the checkpoint file, if it is complete -/
  file : Option (Nat × X) := none

/-- Number of rows of a file in the buffer (`self.nout`). -/
def nbuf (file : Nat) (buf : List (Row X)) : Nat := (buf.filter (fun (r : Row X) => r.file == file)).length

/-- Writing one row, with the flush counter (outputs.py:293-297). -/
def writeRow (flush : Nat) (r : Row X) (s : St X) : St X :=
  let buf := s.buf ++ [r]
  if flush > 0 ∧ nbuf r.file buf ≥ flush then
    { s with
      disk := s.disk ++ buf.filter (·.file == r.file)
      buf := buf.filter (·.file != r.file) }
  else { s with buf := buf }

def exec (s : St X) : Act X → St X
  | .store k => { s with stored := (k, s.x) }
  | .move f => { s with x := f s.x }
  | .row file stride flush label => if label % stride = 0 then writeRow flush ⟨file, label, s.x⟩ s else s
  | .trunc stride label => if label % stride = 0 then { s with file := none } else s
  | .ckpt stride label => if label % stride = 0 then { s with file := some (label, s.x) } else s

def execs (s : St X) : List (Act X) → St X
  | [] => s
  | a :: as => execs (exec s a) as

/-- Input of the simulation. -/
structure Cfg (X : Type) where
  /-- parts of step `k` -/
  parts : Nat → List (X → X)
  outs : List Out
  /-- `safe_stride` -/
  safe : Nat
  /-- `total_steps` -/
  total : Nat

/-- `o.write()` for one output after the step labelled `label`. -/
def outActs (label : Nat) : Out → List (Act X)
  | .rows file stride flush => [.row file stride flush label]
  | .checkpoint stride => [.trunc stride label, .ckpt stride label]

/-- Body of the loop for step `k` (simulation.py:361-391). -/
def stepActs (cfg : Cfg X) (k : Nat) : List (Act X) :=
  (if k % cfg.safe = 0 then [.store k] else []) ++ (cfg.parts k).map .move ++ cfg.outs.flatMap (outActs (k + 1))

/-- Steps `k`, `k + 1`, ... (`n` of them). -/
def stepsActs (cfg : Cfg X) : Nat → Nat → List (Act X)
  | _, 0 => []
  | k, n + 1 => stepActs cfg k ++ stepsActs cfg (k + 1) n

/-- The actions before the loop: the initial configuration is written only when `j = 0` (simulation.py:334-350). -/
def initActs (cfg : Cfg X) (j : Nat) : List (Act X) := if j = 0 then cfg.outs.flatMap (outActs 0) else []

/-- A whole run started at step `j`. -/
def runActs (cfg : Cfg X) (j : Nat) : List (Act X) :=
  initActs cfg j ++ stepsActs cfg j (cfg.total - j)

/-- Start of a process from a stored state (simulation.py:233-240): files are continued, or started afresh at step 0 (old ones are moved
aside); `chk.bind` stores the state. -/
def boot (start : Nat × X) (disk : List (Row X)) (file : Option (Nat × X)) : St X :=
  { x := start.2
    stored := start
    disk := if start.1 = 0 then [] else disk
    buf := []
    file := file }

/-- `Simulation.softexit` (simulation.py:309-324) followed by `CheckpointOutput.write(store=False)` (outputs.py:745-750, 771): what the
RESTART file contains. `storing` tells that the exit arrived inside `store()`, `rollback` that the loop has not been left. -/
def saveRestart (storing rollback : Bool) (step total : Nat) (x : X) (stored : Nat × X) : Nat × X :=
  let step := if step < total then step + 1 else step
  let stored := if rollback then stored else (step, x)
  if storing then (step, x) else stored

/-- How a process ends. -/
inductive Stop where
  /-- a signal handled in the main thread after `n` actions -/
  | soft (n : Nat)
  /-- a signal handled in the main thread during the action following the first `n`, if that is a `store()` -/
  | inStore (n : Nat)
  /-- the main loop leaves after `n + 1` complete steps (EXIT file or wall time found at 413-423) -/
  | afterStep (n : Nat)
  /-- after `n` complete steps, the motion reports that it is finished during the next one (374-376: the outputs are skipped) -/
  | finished (n : Nat)
  /-- the process is killed after `n` actions; the run is resumed from the checkpoint file -/
  | kill (n : Nat)
deriving DecidableEq

/-- Result of one session: the state the next one starts from, and the files. A killed run without a complete checkpoint cannot be
resumed, and `bind` refuses a run without steps left (simulation.py:227-230; also `none` for a stop after more steps than there are). Streams are closed, hence flushed, at a soft exit only. -/
def session (cfg : Cfg X) (start : Nat × X) (disk : List (Row X)) (file : Option (Nat × X)) : Stop →
    Option ((Nat × X) × List (Row X) × Option (Nat × X))
  | .soft n =>
    if cfg.total ≤ start.1 then none else
    let s := execs (boot start disk file) ((runActs cfg start.1).take n)
    some (saveRestart false true 0 cfg.total s.x s.stored, s.disk ++ s.buf, s.file)
  | .inStore n =>
    if cfg.total ≤ start.1 then none else
    let s := execs (boot start disk file) ((runActs cfg start.1).take n)
    match (runActs cfg start.1)[n]? with
    | some (.store k) => some (saveRestart true true k cfg.total s.x s.stored, s.disk ++ s.buf, s.file)
    | _ => some (saveRestart false true 0 cfg.total s.x s.stored, s.disk ++ s.buf, s.file)
  | .afterStep n =>
    if cfg.total ≤ start.1 + n then none else
    let s := execs (boot start disk file) (initActs cfg start.1 ++ stepsActs cfg start.1 (n + 1))
    some (saveRestart false false (start.1 + n) cfg.total s.x s.stored, s.disk ++ s.buf, s.file)
  | .finished n =>
    if cfg.total ≤ start.1 + n then none else
    let s := execs (boot start disk file) (initActs cfg start.1 ++ stepsActs cfg start.1 n ++ (cfg.parts (start.1 + n)).map .move)
    some (saveRestart false false (start.1 + n) cfg.total s.x s.stored, s.disk ++ s.buf, s.file)
  | .kill n =>
    if cfg.total ≤ start.1 then none else
    let s := execs (boot start disk file) ((runActs cfg start.1).take n)
    match s.file with
    | none => none
    | some c => some (c, s.disk, some c)

/-- A sequence of interrupted sessions. -/
def sessions (cfg : Cfg X) (start : Nat × X) (disk : List (Row X)) (file : Option (Nat × X)) : List Stop →
    Option ((Nat × X) × List (Row X) × Option (Nat × X))
  | [] => some (start, disk, file)
  | st :: sts =>
    match session cfg start disk file st with
    | none => none
    | some (start', disk', file') => sessions cfg start' disk' file' sts

/-- A last session that runs to the end; the streams are closed at exit. -/
def finish (cfg : Cfg X) (start : Nat × X) (disk : List (Row X)) (file : Option (Nat × X)) : St X :=
  let s := execs (boot start disk file) (runActs cfg start.1)
  { s with disk := s.disk ++ s.buf, buf := [] }

/-! ### an exit request served by another thread

The exit monitor (EXIT file, wall time) runs the callbacks in its own thread while the main thread goes on; `triggered` is set first,
`Simulation.softexit` comes after the callbacks of force fields and outputs. -/

/-- Shared data of main thread and exit thread, for one system and the step loop around step `k`. -/
structure Race (X : Type) where
  /-- `self.step` -/
  step : Nat
  /-- next value of the loop's range -/
  it : Nat
  total : Nat
  x : X
  stored : Nat × X
  triggered : Bool := false
  rollback : Bool := true
  /-- rows written: label and state -/
  rows : List (Nat × X) := []
  restart : Option (Nat × X) := none

/-- Elementary actions of the two threads. -/
inductive RAct where
  /-- top of the loop: take the next step number, leave if an exit was requested (simulation.py:361-367) -/
  | mainTop
  /-- `chk.store()` with safe stride one -/
  | mainStore
  /-- `run_step` -/
  | mainMove
  /-- second test and outputs (374-391) -/
  | mainOut
  /-- the exit thread sets `triggered` (softexit.py:93) -/
  | exitFlag
  /-- the exit thread runs `Simulation.softexit` (309-324) -/
  | exitSave
deriving DecidableEq

/-- Position of the main thread. -/
inductive MPc where
  | top | store | move | out | left
deriving DecidableEq

/-- One action; the main thread's actions only apply at their place. `f` is a complete step, `g` a step cut short because an
exit was requested (`run_step` returns after the first system, simulation.py:442-457). -/
def rexec (f g : Nat → X → X) (s : Race X × MPc) : RAct → Race X × MPc
  | .mainTop =>
    if s.2 = .top then
      if s.1.triggered then ({ s.1 with step := s.1.it, rollback := false }, .left) else ({ s.1 with step := s.1.it }, .store)
    else s
  | .mainStore => if s.2 = .store then ({ s.1 with stored := (s.1.step, s.1.x) }, .move) else s
  | .mainMove => if s.2 = .move then ({ s.1 with x := (if s.1.triggered then g else f) s.1.step s.1.x }, .out) else s
  | .mainOut =>
    if s.2 = .out then
      if s.1.triggered then ({ s.1 with rollback := false }, .left)
      else ({ s.1 with rows := s.1.rows ++ [(s.1.step + 1, s.1.x)], it := s.1.it + 1 }, .top)
    else s
  | .exitFlag => ({ s.1 with triggered := true }, s.2)
  | .exitSave =>
    ({ s.1 with restart := some (saveRestart false s.1.rollback s.1.step s.1.total s.1.x s.1.stored) }, s.2)

def rrun (f g : Nat → X → X) (s : Race X × MPc) : List RAct → Race X × MPc
  | [] => s
  | a :: as => rrun f g (rexec f g s a) as

end Verif.Run
