/-
Model of the request list of a force field and of batched evaluation in `FFDirect`
(ipi/engine/forcefields.py: `ForceField.queue` 130-214, `release` 249-271, `FFDirect.poll` 553-577, `_process_results` 579-589,
`launch_batch` 591-607, `evaluate` 609-616).

Requests are numbered in the order in which they are created; the status of a request is a heap cell. The potential itself is a
parameter: the model records the groups of structures passed to it. It is assumed to return one result per structure and not to
raise (an exception there ends the polling thread, as in C54). `queue` and `poll` hold the force field's lock, so they are atomic.
-/
namespace Verif.Direct

inductive Status where
  | queued | running | done
deriving DecidableEq, Repr

/-- A direct force field. -/
structure St where
  /-- number of requests created so far -/
  next : Nat := 0
  /-- `self.requests` -/
  reqs : List Nat := []
  /-- `r["status"]` -/
  st : Nat → Status := fun _ => .queued
  /-- `self.request_batch` -/
  batch : List Nat := []
  /-- `self._batch_idle_cycles` -/
  idle : Nat := 0
  /-- groups of structures given to the potential, last first -/
  calls : List (List Nat) := []

def setSt (st : Nat → Status) (i : Nat) (x : Status) : Nat → Status := fun j => if j = i then x else st j

/-- Marks all requests of a list as done (the loop of `launch_batch`, 602-605, with `_process_results` 586-587). -/
def markDone (st : Nat → Status) : List Nat → Nat → Status
  | [] => st
  | i :: is => markDone (setSt st i .done) is

/-- `launch_batch` (591-607). -/
def launch (s : St) : St :=
  { s with
    st := markDone s.st s.batch
    calls := s.batch :: s.calls
    batch := []
    idle := 0 }

/-- `evaluate` (609-616). -/
def evaluate (bs : Nat) (s : St) (i : Nat) : St :=
  if bs = 1 then { s with st := setSt s.st i .done, calls := [i] :: s.calls }
  else
    let s := { s with batch := s.batch ++ [i] }
    if s.batch.length ≥ bs then launch s else s

/-- The loop over requests in `poll` (562-567); the flag is `new_requests`. -/
def pollLoop (bs : Nat) (s : St) (new : Bool) : List Nat → St × Bool
  | [] => (s, new)
  | i :: is =>
    if s.st i = .queued then
      pollLoop bs (evaluate bs { s with st := setSt s.st i .running } i) true is
    else pollLoop bs s new is

/-- `poll` (553-577). -/
def poll (bs : Nat) (s : St) : St :=
  let (s, new) := pollLoop bs s false s.reqs
  if bs > 1 ∧ s.batch.length > 0 then
    let s := { s with idle := if new then 0 else s.idle + 1 }
    if s.idle ≥ bs then launch s else s
  else s

/-- `queue` (130-214): a new request is appended; a force field that is not threaded polls at once. -/
def queue (bs : Nat) (threaded : Bool) (s : St) : St :=
  let s := { s with
    next := s.next + 1
    reqs := s.reqs ++ [s.next]
    st := setSt s.st s.next .queued }
  if threaded then s else poll bs s

/-- `release` (249-271): removes the request if present. -/
def release (s : St) (i : Nat) : St := { s with reqs := s.reqs.erase i }

/-- One pass of `_poll_loop` (245-247) in the polling thread of a threaded force field. -/
def tick (bs : Nat) (s : St) : St := if s.reqs.length > 0 then poll bs s else s

/-- What can happen to a force field. -/
inductive Op where
  | queue | release (i : Nat) | tick
deriving DecidableEq

/-- The polling thread exists only for threaded force fields (`start`, 280-302). -/
def step (bs : Nat) (threaded : Bool) (s : St) : Op → St
  | .queue => queue bs threaded s
  | .release i => release s i
  | .tick => if threaded then tick bs s else s

def run (bs : Nat) (threaded : Bool) (s : St) : List Op → St
  | [] => s
  | o :: os => run bs threaded (step bs threaded s o) os

/-! ### rotational averaging -/

/-- Loop of `FFRotations.poll` (1860-1872) over the list from which it removes the finished requests: python's list iteration keeps
an index, so the element after a removed one is skipped. `fin` says whether all sub-requests are done; the second component lists
the requests answered. -/
def rotPoll (fin : Nat → Bool) : Nat → Nat → List Nat → List Nat → List Nat × List Nat
  | 0, _, reqs, ans => (reqs, ans)
  | fuel + 1, i, reqs, ans =>
    match reqs[i]? with
    | none => (reqs, ans)
    | some r => if fin r then rotPoll fin fuel (i + 1) (reqs.erase r) (ans ++ [r]) else rotPoll fin fuel (i + 1) reqs ans

/-- One pass; the loop ends at the latest after as many turns as there were requests. -/
def rotPass (fin : Nat → Bool) (reqs : List Nat) : List Nat × List Nat := rotPoll fin (reqs.length + 1) 0 reqs []

/-- Statements of `FFRotations.queue` (1774-1780) for one request whose sub-requests may already be finished: the request is
appended to the list with status queued, then its status is set to running. -/
inductive RotPc where
  | append | setRunning | wait
deriving DecidableEq

structure RotSt where
  pc : RotPc := .append
  inList : Bool := false
  st : Status := .queued
  /-- all sub-requests are done -/
  subDone : Bool := false
deriving DecidableEq

inductive RotEv where
  /-- the caller executes its next statement -/
  | caller
  /-- the sub force field finishes the last sub-request -/
  | finish
  /-- the polling thread of the rotation force field runs `poll` -/
  | poll
deriving DecidableEq

def rotStep (s : RotSt) : RotEv → RotSt
  | .caller =>
    match s.pc with
    | .append => { s with pc := .setRunning, inList := true, st := .queued }
    | .setRunning => { s with pc := .wait, st := .running }
    | .wait => s
  | .finish => { s with subDone := true }
  | .poll => if s.inList ∧ s.st ≠ .done ∧ s.subDone then { s with st := .done, inList := false } else s

def rotRun (s : RotSt) : List RotEv → RotSt
  | [] => s
  | e :: es => rotRun (rotStep s e) es

end Verif.Direct
