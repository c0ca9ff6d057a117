/-
Model of the exchange of positions and forces through shared memory.

Code: /repo/ipi/interfaces/sockets.py L124-133 (`DriverSocket.__init__`), L914-1173 (`SHMDriver`),
      L1417-1448 (accepting clients in `pool_update`), /repo/drivers/py/driver.py L129-170 and
      L205-219 (the client).

Simplifications: the six segments of a client (`pos`, `h`, `ih`, `pot`, `force`, `vir`) are one; a
structure is a position array with its cell, a result is potential, force and virial; the strings of
extras travel on the socket and are the subject of C08; messages arrive whole and in order (C06);
the number of structures in a batch is the same on both sides (C56); a request is given only to a
client that is idle (C11).  A segment that has just been created is filled with zeros.  File
descriptors that are opened or closed by other parts of the program in between are left out.
-/
import Mathlib.Data.List.Basic
import Mathlib.Logic.Function.Basic

namespace Verif.Shm

/-- The lowest file descriptor that is not in use: what the operating system returns for `accept`
and `dup`. -/
def fresh (used : List ℕ) : ℕ :=
  ((List.range (used.length + 1)).find? fun k => decide (k ∉ used)).getD 0

/-- A segment of shared memory: the structures and the results. -/
structure Seg (S R : Type) where
  inp : List S
  out : List R

/-- `SHMDriver`, on the side of i-PI. -/
structure Drv (S : Type) where
  /-- The number in the names of the segments (/repo/ipi/interfaces/sockets.py L934): the descriptor
  of the socket that was accepted, not of its duplicate. -/
  pref : ℕ
  /-- The duplicate that the driver uses (L125-127). -/
  fd : ℕ
  /-- The segment and the number of atoms that it has been made for (L950-966). -/
  seg : Option (ℕ × ℕ) := none
  /-- `_first_posdata` (L931). -/
  first : Bool := true
  alive : Bool := true
  /-- The requests that are being evaluated. -/
  wait : Option (List S) := none

/-- The client (/repo/drivers/py/driver.py). -/
structure Cli (R : Type) where
  /-- The segment it is attached to (L143-164). -/
  att : Option ℕ := none
  /-- POSDATA and GETFORCE wait in its socket, with the name of the segment or without. -/
  inbox : Option (Option ℕ) := none
  /-- `results_batch` (L169). -/
  got : Option (List R) := none
  /-- FORCEREADY is on its way to i-PI. -/
  ready : Bool := false
  /-- The process has ended with an exception. -/
  dead : Bool := false

/-- The state of i-PI, its clients and the operating system. -/
structure St (S R : Type) where
  used : List ℕ
  /-- The local variable `client` of `pool_update` (/repo/ipi/interfaces/sockets.py L1421). -/
  var : Option ℕ := none
  /-- Which segment has the name with this number. -/
  names : ℕ → Option ℕ := fun _ => none
  mem : ℕ → Seg S R
  nmem : ℕ := 0
  drv : ℕ → Drv S
  cli : ℕ → Cli R := fun _ => {}
  nd : ℕ := 0
  /-- The requests that have been answered, with the results that i-PI stores for them. -/
  log : List (List S × List R) := []

/-- What can happen next: i-PI accepts a client, leaves `pool_update`, sends requests to a client,
reads the results of a client, drops a client; a client reads the positions, writes the results. -/
inductive Ev (S : Type) where
  | accept
  | endPoll
  | send (d : ℕ) (reqs : List S)
  | recv (d : ℕ)
  | drop (d : ℕ)
  | read (d : ℕ)
  | write (d : ℕ)

/-- The force field, the number of atoms, the size of a batch and the result that zeros stand for. -/
structure Cfg (S R : Type) where
  eval : S → R
  natoms : S → ℕ
  n : ℕ
  zero : R

variable {S R : Type}

/-- Closing the descriptor that a variable holds. -/
def closeFd (used : List ℕ) : Option ℕ → List ℕ
  | none => used
  | some f => used.filter fun k => decide (k ≠ f)

/-- /repo/ipi/interfaces/sockets.py L1421-1423 with L125-127 and L934: the new socket is created,
then the old value of `client` is dropped and its socket closed, then the socket is duplicated. -/
def accept (st : St S R) : St S R :=
  let f := fresh st.used
  let used2 := closeFd (f :: st.used) st.var
  let g := fresh used2
  { st with
    used := g :: used2
    var := some f
    drv := Function.update st.drv st.nd { pref := f, fd := g }
    cli := Function.update st.cli st.nd {}
    nd := st.nd + 1 }

/-- The end of `pool_update`: its variables are dropped. -/
def endPoll (st : St S R) : St S R := { st with used := closeFd st.used st.var, var := none }

/-- /repo/ipi/interfaces/sockets.py L1127-1129: the last request is repeated. -/
def padded (n : ℕ) (reqs : List S) : List S :=
  reqs ++ (match reqs.getLast? with
    | none => []
    | some r => List.replicate (n - reqs.length) r)

/-- /repo/ipi/interfaces/sockets.py L936-948 and L950-966: a segment is created; if the name is taken
it is taken away from the segment that has it. -/
def alloc (c : Cfg S R) (st : St S R) (d natoms : ℕ) : St S R :=
  { st with
    names := Function.update st.names (st.drv d).pref (some st.nmem)
    mem := Function.update st.mem st.nmem ⟨[], List.replicate c.n c.zero⟩
    nmem := st.nmem + 1
    drv := Function.update st.drv d { st.drv d with seg := some (st.nmem, natoms) } }

/-- /repo/ipi/interfaces/sockets.py L979-997: the structures are written to the segment and the message
is sent, with the name of the segment the first time.  If a structure does not have the number of atoms
of the segment there is an exception and the client is given up. -/
def fill (c : Cfg S R) (st : St S R) (d : ℕ) (reqs : List S) : St S R :=
  match (st.drv d).seg with
  | none => st
  | some (id, nat) =>
    if reqs.all fun r => decide (c.natoms r = nat) then
      { st with
        mem := Function.update st.mem id { st.mem id with inp := padded c.n reqs }
        drv := Function.update st.drv d { st.drv d with first := false, wait := some reqs }
        cli := Function.update st.cli d { st.cli d with
          inbox := some (if (st.drv d).first then some (st.drv d).pref else none) } }
    else { st with drv := Function.update st.drv d { st.drv d with alive := false } }

/-- /repo/ipi/interfaces/sockets.py L1040-1081 and L1099-1149: the segment is made before the first
message. -/
def send (c : Cfg S R) (st : St S R) (d : ℕ) (reqs : List S) : St S R :=
  match reqs with
  | [] => st
  | r0 :: rs =>
    if d < st.nd ∧ (st.drv d).alive ∧ (st.drv d).wait.isNone ∧ (r0 :: rs).length ≤ c.n then
      match (st.drv d).seg with
      | none => fill c (alloc c st d (c.natoms r0)) d (r0 :: rs)
      | some _ => fill c st d (r0 :: rs)
    else st

/-- /repo/drivers/py/driver.py L134-170: the client attaches to the segment when it sees the first
message, and evaluates the structures. -/
def readPos (c : Cfg S R) (st : St S R) (d : ℕ) : St S R :=
  let k := st.cli d
  if k.dead then st
  else match k.inbox with
    | none => st
    | some m =>
      match k.att with
      | some id =>
        let k2 := { k with inbox := none, got := some ((st.mem id).inp.map c.eval) }
        { st with cli := Function.update st.cli d k2 }
      | none => match m with
        | none => st
        | some p => match st.names p with
          | none => { st with cli := Function.update st.cli d { k with dead := true } }
          | some id =>
            let k2 := { k with att := some id, inbox := none, got := some ((st.mem id).inp.map c.eval) }
            { st with cli := Function.update st.cli d k2 }

/-- /repo/drivers/py/driver.py L209-219: the results are written, then FORCEREADY is sent. -/
def writeForce (st : St S R) (d : ℕ) : St S R :=
  let k := st.cli d
  match k.got, k.att with
  | some rs, some id => { st with
      mem := Function.update st.mem id { st.mem id with out := rs }
      cli := Function.update st.cli d { k with got := none, ready := true } }
  | _, _ => st

/-- /repo/ipi/interfaces/sockets.py L999-1009, L1083-1096 and L1150-1163: after FORCEREADY the results
are copied from the segment, as many as there were requests. -/
def recv (st : St S R) (d : ℕ) : St S R :=
  if (st.drv d).alive ∧ (st.cli d).ready then
    match (st.drv d).wait, (st.drv d).seg with
    | some reqs, some (id, _) => { st with
        drv := Function.update st.drv d { st.drv d with wait := none }
        cli := Function.update st.cli d { st.cli d with ready := false }
        log := st.log ++ [(reqs, (st.mem id).out.take reqs.length)] }
    | _, _ => st
  else st

/-- /repo/ipi/interfaces/sockets.py L968-976: the names of the segments are removed, whichever segments
have them. -/
def freed (st : St S R) (d : ℕ) : ℕ → Option ℕ :=
  match (st.drv d).seg with
  | none => st.names
  | some _ => Function.update st.names (st.drv d).pref none

/-- /repo/ipi/interfaces/sockets.py L1166-1170 and L1385-1396: a client that has died or does not answer
is given up, its socket is closed and its segments are removed. -/
def drop (st : St S R) (d : ℕ) : St S R :=
  if d < st.nd ∧ (st.drv d).alive then
    { st with
      used := st.used.filter fun k => decide (k ≠ (st.drv d).fd)
      names := freed st d
      drv := Function.update st.drv d { st.drv d with alive := false } }
  else st

/-- One event. -/
def step (c : Cfg S R) (st : St S R) : Ev S → St S R
  | .accept => accept st
  | .endPoll => endPoll st
  | .send d reqs => send c st d reqs
  | .recv d => recv st d
  | .drop d => drop st d
  | .read d => readPos c st d
  | .write d => writeForce st d

/-- A whole history. -/
def run (c : Cfg S R) (st : St S R) (evs : List (Ev S)) : St S R := evs.foldl (step c) st

/-- The beginning: i-PI has opened some files and the socket on which it listens, and has no
clients. -/
def start (c : Cfg S R) (used : List ℕ) : St S R :=
  { used := used, mem := fun _ => ⟨[], List.replicate c.n c.zero⟩, drv := fun _ => ⟨0, 0, none, true, false, none⟩ }

end Verif.Shm
