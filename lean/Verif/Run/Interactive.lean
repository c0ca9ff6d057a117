import Verif.Run.Model
/-
Model of a simulation that is driven from a script (ipi/scripting/interactive.py).

* `InteractiveSimulation.run` 89-100 on top of `Simulation.run` (ipi/engine/simulation.py:326-431), of which the actions are those of
  `Verif.Run.Model`;
* `self.chk.write(store=True)` (ipi/engine/outputs.py:730-779) with `stride = 1` and `overwrite = True`, so that it always writes;
* `set_structures` 152-168 and `thermalize_momenta` 170-193 as arbitrary changes of the physical state between two runs (they are the
  subject of `Verif.Run.Structures`);
* a signal that arrives between two calls: `Simulation.softexit` (simulation.py:309-324) of the object created in `__init__` 47-57. The
  wrapper copies the `__dict__` of that object: `_step` is shared, `rollback` and `tsteps` are not, so `rollback` stays `True` there.

Motions that report to be finished, the EXIT file and the wall time are left out: calls make all the steps they are asked for.
-/
namespace Verif.Run
variable {X : Type}

/-- The simulation as the script sees it. -/
structure Sim (X : Type) where
  st : St X
  /-- `self.step` -/
  step : Nat
  /-- what the RESTART file contains -/
  restart : Option (Nat × X) := none

/-- Loading an input or a restart file (interactive.py:47-57). -/
def Sim.load (start : Nat × X) (disk : List (Row X)) (file : Option (Nat × X)) : Sim X :=
  { st := boot start disk file, step := start.1 }

/-- The input with `tsteps = step + steps` (interactive.py:96) and the outputs left out if they are not wanted (simulation.py:335, 379). -/
def pieceCfg (cfg : Cfg X) (j n : Nat) (w : Bool) : Cfg X :=
  { cfg with total := j + n, outs := if w then cfg.outs else [] }

/-- `self.step` when the loop is over: the last value of the range, or unchanged if that is empty (simulation.py:360). -/
def lastStep (j n : Nat) : Nat := if n = 0 then j else j + n - 1

/-- `run(steps, write_outputs)` (interactive.py:89-100). -/
def Sim.run (cfg : Cfg X) (n : Nat) (w : Bool) (s : Sim X) : Sim X :=
  let st := execs s.st (runActs (pieceCfg cfg s.step n w) s.step)
  let k := lastStep s.step n
  { st := { st with stored := (k + 1, st.x) }
    step := k + 1
    restart := some (k + 1, st.x) }

/-- A change made by the script between two runs. -/
def Sim.edit (f : X → X) (s : Sim X) : Sim X := { s with st := { s.st with x := f s.st.x } }

/-- The lines of a script. -/
inductive Cmd (X : Type) where
  | run (steps : Nat) (write : Bool)
  | edit (f : X → X)

def Sim.cmd (cfg : Cfg X) (s : Sim X) : Cmd X → Sim X
  | .run n w => s.run cfg n w
  | .edit f => s.edit f

def Sim.script (cfg : Cfg X) (s : Sim X) : List (Cmd X) → Sim X
  | [] => s
  | c :: cs => (s.cmd cfg c).script cfg cs

/-- What the RESTART file contains after a signal between two calls; `total` is `tsteps` of the object that was loaded. -/
def Sim.exit (total : Nat) (s : Sim X) : Nat × X := saveRestart false true s.step total s.st.x s.st.stored

end Verif.Run
