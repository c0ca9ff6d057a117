/-
Model of `Softexit` (ipi/utils/softexit.py): `trigger` 65-81, `cleanup` 83-131, `_kill_handler` 163-190.

Any number of threads may ask for an exit. Each statement that reads or writes `triggered` or `exiting`, and each registered callback,
is one atomic step; a schedule chooses the next thread. `signal t` is the arrival of SIGINT or SIGTERM while thread `t` (the main
thread) is executing callbacks: the handler's own `trigger` returns at once because `triggered` is set, and then the original handler is
called (181-190), which raises (`KeyboardInterrupt` for SIGINT; for SIGTERM the saved handler is not callable, `TypeError`).
Registration of callbacks during the exit and the final joins of threads are not modelled.
-/
namespace Verif.Softexit

/-- What a callback does: return, raise `RuntimeError` (tolerated, 112-116), raise anything else. -/
inductive Cb where
  | ok | runtimeError | otherError
deriving DecidableEq

/-- Position of a thread in `trigger` / `cleanup`. -/
inductive Pc where
  /-- about to test `self.triggered` in `trigger` (76) -/
  | start
  /-- about to test it again in `cleanup` (91) -/
  | test
  /-- about to set `self.exiting` (92) -/
  | setExiting
  /-- about to set `self.triggered` (93) -/
  | setTriggered
  /-- about to run callback `k` (111-116) -/
  | call (k : Nat)
  /-- returned, or left through `sys.exit` -/
  | done
  /-- left through an exception -/
  | dead
deriving DecidableEq

structure St where
  triggered : Bool := false
  exiting : Bool := false
  pc : Nat → Pc := fun _ => .start
  /-- callbacks started so far: thread and index -/
  log : List (Nat × Nat) := []

inductive Ev where
  | step (t : Nat)
  | signal (t : Nat)
deriving DecidableEq

def setPc (s : St) (t : Nat) (p : Pc) : St := { s with pc := fun u => if u = t then p else s.pc u }

def step (cbs : List Cb) (s : St) : Ev → St
  | .step t =>
    match s.pc t with
    | .start => if s.triggered then setPc s t .done else setPc s t .test
    | .test => if s.triggered then setPc s t .done else setPc s t .setExiting
    | .setExiting => setPc { s with exiting := true } t .setTriggered
    | .setTriggered => setPc { s with triggered := true } t (.call 0)
    | .call k =>
      match cbs[k]? with
      | none => setPc { s with exiting := false } t .done
      | some .otherError => setPc { s with log := s.log ++ [(t, k)] } t .dead
      | some _ => setPc { s with log := s.log ++ [(t, k)] } t (.call (k + 1))
    | .done => s
    | .dead => s
  | .signal t =>
    match s.pc t with
    | .call _ => setPc s t .dead
    | _ => s

def run (cbs : List Cb) (s : St) : List Ev → St
  | [] => s
  | e :: es => run cbs (step cbs s e) es

end Verif.Softexit
