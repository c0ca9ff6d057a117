/-
Model of how a finished force evaluation is published by one thread and picked up by another: where the energy offset is
subtracted relative to the moment the request is marked as done.

* `FFEval._eval_thread` / `evaluate` (ipi/engine/forcefields.py:394-397, 421-429 and the `evaluate` of its subclasses):
  result stored, status set to done, then the offset is subtracted in place.
* `FFDirect._process_results` (forcefields.py:579-589), `Driver.dispatch`, `dispatch_recv`, `dispatch_recv_batch`
  (ipi/interfaces/sockets.py:546-566, 646-670, 846-856), `InterfaceMPI._unpack` (ipi/interfaces/mpi.py:289-290), the default
  `ForceField.poll` (forcefields.py:220-231): offset subtracted, then status set to done.
* waiting side: `ForceBead.get_all` (ipi/engine/forces.py:167-209) takes a reference to the result list, releases the request
  (which joins the evaluation thread if there is one, forcefields.py:258-260) and only then are the entries of the list used;
  `FFCommittee.check_finish` + `gather` (forcefields.py:1442-1505) reads the entries as soon as the status says done.

Each python statement that touches shared data is one atomic step; a schedule chooses which thread moves next.  Only the potential
energy (entry 0 of the result list) is modelled.
-/
namespace Verif.Offset
variable {E : Type}

/-- Statements of the evaluating thread. -/
inductive Ev where
  /-- `request["result"] = [v, ...]` -/
  | put
  /-- `request["result"][0] -= offset` -/
  | sub
  /-- `request["status"] = "Done"` -/
  | done
deriving DecidableEq

/-- Statements of the waiting side. -/
inductive Ca where
  /-- blocks until `request["status"] == "Done"` -/
  | waitDone
  /-- blocks until the evaluation thread has ended (`request["thread"].join()`) -/
  | join
  /-- uses `request["result"][0]` -/
  | read
deriving DecidableEq

/-- Shared data, remaining program of both threads, and what the waiting side obtained. -/
structure St (E : Type) where
  evp : List Ev
  cap : List Ca
  result : Option E := none
  isDone : Bool := false
  got : Option (Option E) := none

/-- One step of the evaluating thread. `v` is the evaluated potential. -/
def evStep [Sub E] (v off : E) (s : St E) : St E :=
  match s.evp with
  | [] => s
  | .put :: p => { s with evp := p, result := some v }
  | .sub :: p => { s with evp := p, result := s.result.map (· - off) }
  | .done :: p => { s with evp := p, isDone := true }

/-- One step of the waiting side; a blocked statement does not move. -/
def caStep (s : St E) : St E :=
  match s.cap with
  | [] => s
  | .waitDone :: p => if s.isDone then { s with cap := p } else s
  | .join :: p => if s.evp = [] then { s with cap := p } else s
  | .read :: p => { s with cap := p, got := some s.result }

/-- Runs a schedule: `true` lets the evaluating thread move, `false` the waiting side. -/
def run [Sub E] (v off : E) (s : St E) : List Bool → St E
  | [] => s
  | b :: bs => run v off (if b then evStep v off s else caStep s) bs

/-- forcefields.py:394-397 with the `evaluate` methods of the FFEval family. -/
def evEval : List Ev := [.put, .done, .sub]
/-- forcefields.py:579-589; the same order in sockets, MPI and the default `poll`. -/
def evDirect : List Ev := [.put, .sub, .done]
/-- forces.py:167-209 with forcefields.py:258-260; evaluators without a thread of their own do not join, which `join` covers only
for the FFEval family: see `caBeadNoThread`. -/
def caBead : List Ca := [.waitDone, .join, .read]
/-- The same for requests without a `thread` entry. -/
def caBeadNoThread : List Ca := [.waitDone, .read]
/-- forcefields.py:1442-1505. -/
def caGather : List Ca := [.waitDone, .read, .join]

/-- Cavity force field (forcefields.py:2322-2372, 2468): one request per bath, each already shifted by the socket layer
(sockets.py:551), summed; photon energy added; offset subtracted again. -/
def cavph [Add E] [Sub E] (zero : E) (off : E) (us : List E) (ph : E) : E :=
  (us.foldl (fun acc u => acc + (u - off)) zero) + ph - off

end Verif.Offset
